import Verif.Graph.TreeLemmas

/-!
# The hierarchy stays a tree: additions and moves

Sources: `/repo/hugr-core/src/hugr/{hugrmut,internal}.rs`.
-/
namespace Verif.Graph

variable {Op Meta : Type}

theorem IsTree.ok {h : Hugr Op Meta} (ht : IsTree h) : h.hier.Ok := ⟨ht.child_iff, ht.child_once⟩

theorem IsTree.acyclic {h : Hugr Op Meta} (ht : IsTree h) : Acyclic h.hier.parent := by
  intro n p hp
  exact acyclic_of_reach (ht.reaches_root n (ht.parent_live n p hp).1) ht.root_top p hp

theorem IsTree.bounded {h : Hugr Op Meta} (ht : IsTree h) :
    ∀ n p, h.hier.parent n = some p → n < h.cap :=
  fun n p hp => ht.in_range n (ht.parent_live n p hp).1

/-- The node `n` is live and detached; apart from that the hierarchy is a tree. -/
structure PreTree (h : Hugr Op Meta) (n : Nat) : Prop where
  root_live : h.live h.moduleRoot = true
  entry_live : h.live h.entrypoint = true
  root_top : h.hier.parent h.moduleRoot = none
  ne_root : n ≠ h.moduleRoot
  n_live : h.live n = true
  n_top : h.hier.parent n = none
  has_parent : ∀ m, h.live m = true → m ≠ h.moduleRoot → m ≠ n → ∃ p, h.hier.parent m = some p
  parent_live : ∀ m p, h.hier.parent m = some p → h.live m = true ∧ h.live p = true
  ok : h.hier.Ok
  reaches : ∀ m, h.live m = true → Above h.hier.parent m h.moduleRoot ∨ Above h.hier.parent m n
  in_range : ∀ m, h.live m = true → m < h.cap

theorem PreTree.acyclic {h : Hugr Op Meta} {n : Nat} (ht : PreTree h n) : Acyclic h.hier.parent := by
  intro m p hp
  rcases ht.reaches m (ht.parent_live m p hp).1 with hr | hr
  · exact acyclic_of_reach hr ht.root_top p hp
  · exact acyclic_of_reach hr ht.n_top p hp

theorem PreTree.onPath_iff {h : Hugr Op Meta} {n : Nat} (ht : PreTree h n) (p m : Nat) :
    h.hier.onPath h.cap p m = true ↔ Above h.hier.parent p m :=
  Verif.Graph.onPath_iff ht.acyclic (fun a b hp => ht.in_range a (ht.parent_live a b hp).1) p m

theorem tree_attach {h : Hugr Op Meta} {n q : Nat} {cs : List Nat} (ht : PreTree h n)
    (hq : h.live q = true) (hnq : ¬ Above h.hier.parent q n)
    (hcs : ∀ x, x ∈ cs ↔ x = n ∨ x ∈ h.hier.children q) (hnd : cs.Nodup) :
    IsTree { h with hier := h.hier.attach n q cs } := by
  have hok := attach_ok ht.ok ht.n_top hcs hnd
  have hqr : Above h.hier.parent q h.moduleRoot := (ht.reaches q hq).resolve_right hnq
  refine ⟨ht.root_live, ht.entry_live, ?_, ?_, ?_, hok.child_iff, hok.child_once, ?_, ht.in_range⟩
  · simp only [Hier.attach]; rw [upd_ne _ _ (Ne.symm ht.ne_root)]; exact ht.root_top
  · intro m hm hr
    simp only [Hier.attach]
    by_cases hmn : m = n
    · subst hmn; exact ⟨q, upd_same ..⟩
    · rw [upd_ne _ _ hmn]; exact ht.has_parent m hm hr hmn
  · intro m p hp
    simp only [Hier.attach] at hp
    by_cases hmn : m = n
    · subst hmn; rw [upd_same] at hp; cases hp; exact ⟨ht.n_live, hq⟩
    · rw [upd_ne _ _ hmn] at hp; exact ht.parent_live m p hp
  · intro m hm
    exact attach_reaches ht.n_top hqr (ht.reaches m hm)

theorem preTree_detach {h : Hugr Op Meta} (ht : IsTree h) {n : Nat} (hn : h.live n = true)
    (hr : n ≠ h.moduleRoot) : PreTree { h with hier := h.hier.detach n } n := by
  refine ⟨ht.root_live, ht.entry_live, ?_, hr, hn, ?_, ?_, ?_, detach_ok ht.ok n, ?_, ht.in_range⟩
  · rw [detach_parent, upd_ne _ _ (Ne.symm hr)]; exact ht.root_top
  · rw [detach_parent, upd_same]
  · intro m hm h1 h2
    rw [detach_parent, upd_ne _ _ h2]; exact ht.has_parent m hm h1
  · intro m p hp
    simp only [detach_parent] at hp
    by_cases hmn : m = n
    · subst hmn; rw [upd_same] at hp; cases hp
    · rw [upd_ne _ _ hmn] at hp; exact ht.parent_live m p hp
  · intro m hm
    simp only [detach_parent]
    exact above_cut n (ht.reaches_root m hm)

/-- Nothing is known of a dead index: no parent, no children. -/
theorem IsTree.dead {h : Hugr Op Meta} (ht : IsTree h) {n : Nat} (hn : h.live n = false) :
    h.hier.parent n = none ∧ h.hier.children n = [] := by
  constructor
  · cases hp : h.hier.parent n with
    | none => rfl
    | some p => have := (ht.parent_live n p hp).1; rw [hn] at this; cases this
  · cases hc : h.hier.children n with
    | nil => rfl
    | cons x xs =>
      have : x ∈ h.hier.children n := by rw [hc]; simp
      rw [ht.child_iff] at this
      have := (ht.parent_live x n this).2
      rw [hn] at this; cases this

theorem preTree_addNode {I : OpInfo Op} {h h1 : Hugr Op Meta} (ht : IsTree h) {idx : Nat} {op : Op}
    (ha : h.addNode I idx op = some h1) : PreTree h1 idx := by
  unfold Hugr.addNode at ha
  by_cases hl : h.live idx = true
  · rw [if_pos hl] at ha; cases ha
  · rw [if_neg hl] at ha
    simp only [Option.some.injEq] at ha
    subst ha
    simp only [Bool.not_eq_true] at hl
    have hd := ht.dead hl
    have hne : ∀ m, h.live m = true → m ≠ idx := fun m hm e => by rw [e, hl] at hm; cases hm
    have hup : ∀ m, h.live m = true → upd h.live idx true m = true := fun m hm => by
      rw [upd_ne _ _ (hne m hm)]; exact hm
    refine ⟨hup _ ht.root_live, hup _ ht.entry_live, ht.root_top, (hne _ ht.root_live).symm,
      upd_same .., hd.1, ?_, ?_, ht.ok, ?_, ?_⟩
    · intro m hm h1 h2
      simp only [upd_ne _ _ h2] at hm
      exact ht.has_parent m hm h1
    · intro m p hp
      obtain ⟨h1, h2⟩ := ht.parent_live m p hp
      exact ⟨hup _ h1, hup _ h2⟩
    · intro m hm
      by_cases hmi : m = idx
      · subst hmi; exact Or.inr (.refl _)
      · simp only [upd_ne _ _ hmi] at hm
        exact Or.inl (ht.reaches_root m hm)
    · intro m hm
      by_cases hmi : m = idx
      · subst hmi; simp only []; omega
      · simp only [upd_ne _ _ hmi] at hm
        have := ht.in_range m hm
        simp only []; omega

/-- Attaching to a detached node as the last child. -/
theorem pushChild_tree {h h' : Hugr Op Meta} {n q : Nat} (ht : PreTree h n) (hq : h.live q = true)
    (hp : h.withHier (h.hier.pushChild h.cap n q) = some h') :
    IsTree h' ∧ h' = { h with hier := h.hier.attach n q (h.hier.children q ++ [n]) } := by
  unfold Hier.pushChild Hier.canAttach at hp
  split at hp
  case isFalse => simp [Hugr.withHier] at hp
  case isTrue hc =>
    simp only [Hugr.withHier, Option.some.injEq] at hp
    simp only [Bool.and_eq_true, Bool.not_eq_true', ← Bool.not_eq_true, ht.onPath_iff] at hc
    have hnq : n ∉ h.hier.children q := by
      rw [ht.ok.child_iff, ht.n_top]; simp
    refine ⟨?_, hp.symm⟩
    rw [← hp]
    refine tree_attach ht hq hc.2 ?_ ?_
    · intro x; simp only [List.mem_append, List.mem_singleton]; tauto
    · rw [List.nodup_append]
      refine ⟨ht.ok.child_once q, by simp, ?_⟩
      intro a ha b hb
      simp only [List.mem_singleton] at hb
      subst hb
      rintro rfl
      exact hnq ha

theorem insertBefore_tree {h h' : Hugr Op Meta} {n s : Nat} (ht : PreTree h n)
    (hp : h.withHier (h.hier.insertBefore h.cap n s) = some h') :
    IsTree h' ∧ ∃ q, h.hier.parent s = some q ∧
      h' = { h with hier := h.hier.attach n q (insertBeforeIn s n (h.hier.children q)) } := by
  unfold Hier.insertBefore Hier.canAttach at hp
  cases hs : h.hier.parent s with
  | none => rw [hs] at hp; simp [Hugr.withHier] at hp
  | some q =>
    rw [hs] at hp
    simp only [] at hp
    split at hp
    case isFalse => simp [Hugr.withHier] at hp
    case isTrue hc =>
      simp only [Hugr.withHier, Option.some.injEq] at hp
      simp only [Bool.and_eq_true, Bool.not_eq_true', ← Bool.not_eq_true, ht.onPath_iff] at hc
      have hsq : s ∈ h.hier.children q := by rw [ht.ok.child_iff]; exact hs
      have hnq : n ∉ h.hier.children q := by
        rw [ht.ok.child_iff, ht.n_top]; simp
      refine ⟨?_, q, rfl, hp.symm⟩
      rw [← hp]
      exact tree_attach ht (ht.parent_live s q hs).2 hc.2 (fun x => mem_insertBeforeIn hsq)
        (nodup_insertBeforeIn (ht.ok.child_once q) hnq)

theorem insertAfter_tree {h h' : Hugr Op Meta} {n s : Nat} (ht : PreTree h n)
    (hp : h.withHier (h.hier.insertAfter h.cap n s) = some h') :
    IsTree h' ∧ ∃ q, h.hier.parent s = some q ∧
      h' = { h with hier := h.hier.attach n q (insertAfterIn s n (h.hier.children q)) } := by
  unfold Hier.insertAfter Hier.canAttach at hp
  cases hs : h.hier.parent s with
  | none => rw [hs] at hp; simp [Hugr.withHier] at hp
  | some q =>
    rw [hs] at hp
    simp only [] at hp
    split at hp
    case isFalse => simp [Hugr.withHier] at hp
    case isTrue hc =>
      simp only [Hugr.withHier, Option.some.injEq] at hp
      simp only [Bool.and_eq_true, Bool.not_eq_true', ← Bool.not_eq_true, ht.onPath_iff] at hc
      have hsq : s ∈ h.hier.children q := by rw [ht.ok.child_iff]; exact hs
      have hnq : n ∉ h.hier.children q := by
        rw [ht.ok.child_iff, ht.n_top]; simp
      refine ⟨?_, q, rfl, hp.symm⟩
      rw [← hp]
      exact tree_attach ht (ht.parent_live s q hs).2 hc.2 (fun x => mem_insertAfterIn hsq)
        (nodup_insertAfterIn (ht.ok.child_once q) hnq)

/-- The module root cannot be attached anywhere: everything is below it. -/
theorem root_not_attachable {h : Hugr Op Meta} (ht : IsTree h) (q : Nat) (hq : h.live q = true) :
    (h.hier.detach h.moduleRoot).canAttach h.cap h.moduleRoot q = false := by
  have hd : h.hier.detach h.moduleRoot = h.hier := by
    unfold Hier.detach; rw [ht.root_top]
  rw [hd]
  unfold Hier.canAttach
  have := (onPath_iff ht.acyclic ht.bounded q h.moduleRoot).2 (ht.reaches_root q hq)
  simp [this]

theorem setParent_tree {h h' : Hugr Op Meta} (ht : IsTree h) {n q : Nat}
    (hs : h.setParent n q = some h') : IsTree h' ∧ n ≠ h.moduleRoot ∧
      h' = { h with hier := (h.hier.detach n).attach n q ((h.hier.children q).erase n ++ [n]) } := by
  unfold Hugr.setParent at hs
  split at hs
  case isFalse => cases hs
  case isTrue hc =>
    simp only [Bool.and_eq_true] at hc
    by_cases hr : n = h.moduleRoot
    · subst hr
      simp [Hier.pushChild, root_not_attachable ht q hc.1, Hugr.withHier] at hs
    · obtain ⟨h1, h2⟩ := pushChild_tree (preTree_detach ht hc.2 hr) hc.1 hs
      refine ⟨h1, hr, ?_⟩
      rw [h2]; simp only [detach_children ht.ok]

theorem moveAfter_tree {h h' : Hugr Op Meta} (ht : IsTree h) {n s : Nat}
    (hs : h.moveAfterSibling n s = some h') : IsTree h' ∧ n ≠ h.moduleRoot ∧
      ∃ q, h.hier.parent s = some q ∧ h' = { h with
        hier := (h.hier.detach n).attach n q
          (insertAfterIn s n ((h.hier.children q).erase n)) } := by
  unfold Hugr.moveAfterSibling Hugr.validNonEntrypoint at hs
  split at hs
  case isFalse => cases hs
  case isTrue hc =>
    simp only [Bool.and_eq_true] at hc
    by_cases hr : n = h.moduleRoot
    · subst hr
      unfold Hier.insertAfter at hs
      cases hq : (h.hier.detach h.moduleRoot).parent s with
      | none => rw [hq] at hs; simp [Hugr.withHier] at hs
      | some q =>
        rw [hq] at hs
        have hq' : h.hier.parent s = some q := by
          rw [detach_parent] at hq
          unfold upd at hq
          split at hq
          · cases hq
          · exact hq
        simp only [root_not_attachable ht q (ht.parent_live s q hq').2, Hugr.withHier] at hs
        simp at hs
    · obtain ⟨h1, q, h2, h3⟩ := insertAfter_tree (preTree_detach ht hc.1.1 hr) hs
      refine ⟨h1, hr, q, ?_, ?_⟩
      · simp only [detach_parent] at h2
        unfold upd at h2
        split at h2
        · cases h2
        · exact h2
      · rw [h3]; simp only [detach_children ht.ok]

theorem moveBefore_tree {h h' : Hugr Op Meta} (ht : IsTree h) {n s : Nat}
    (hs : h.moveBeforeSibling n s = some h') : IsTree h' ∧ n ≠ h.moduleRoot ∧
      ∃ q, h.hier.parent s = some q ∧ h' = { h with
        hier := (h.hier.detach n).attach n q
          (insertBeforeIn s n ((h.hier.children q).erase n)) } := by
  unfold Hugr.moveBeforeSibling Hugr.validNonEntrypoint at hs
  split at hs
  case isFalse => cases hs
  case isTrue hc =>
    simp only [Bool.and_eq_true] at hc
    by_cases hr : n = h.moduleRoot
    · subst hr
      unfold Hier.insertBefore at hs
      cases hq : (h.hier.detach h.moduleRoot).parent s with
      | none => rw [hq] at hs; simp [Hugr.withHier] at hs
      | some q =>
        rw [hq] at hs
        have hq' : h.hier.parent s = some q := by
          rw [detach_parent] at hq
          unfold upd at hq
          split at hq
          · cases hq
          · exact hq
        simp only [root_not_attachable ht q (ht.parent_live s q hq').2, Hugr.withHier] at hs
        simp at hs
    · obtain ⟨h1, q, h2, h3⟩ := insertBefore_tree (preTree_detach ht hc.1.1 hr) hs
      refine ⟨h1, hr, q, ?_, ?_⟩
      · simp only [detach_parent] at h2
        unfold upd at h2
        split at h2
        · cases h2
        · exact h2
      · rw [h3]; simp only [detach_children ht.ok]

theorem addNodeWithParent_tree {I : OpInfo Op} {h h' : Hugr Op Meta} (ht : IsTree h)
    {idx parent : Nat} {op : Op} (hq : h.live parent = true)
    (ha : h.addNodeWithParent I idx parent op = some h') : IsTree h' := by
  unfold Hugr.addNodeWithParent at ha
  cases h1 : h.addNode I idx op with
  | none => rw [h1] at ha; cases ha
  | some g =>
    rw [h1] at ha
    refine (pushChild_tree (preTree_addNode ht h1) ?_ ha).1
    unfold Hugr.addNode at h1
    split at h1
    · cases h1
    · simp only [Option.some.injEq] at h1
      subst h1
      simp only [upd]; split <;> simp_all

theorem addNodeBefore_tree {I : OpInfo Op} {h h' : Hugr Op Meta} (ht : IsTree h)
    {idx sibling : Nat} {op : Op} (ha : h.addNodeBefore I idx sibling op = some h') : IsTree h' := by
  unfold Hugr.addNodeBefore at ha
  cases h1 : h.addNode I idx op with
  | none => rw [h1] at ha; cases ha
  | some g => rw [h1] at ha; exact (insertBefore_tree (preTree_addNode ht h1) ha).1

theorem addNodeAfter_tree {I : OpInfo Op} {h h' : Hugr Op Meta} (ht : IsTree h)
    {idx sibling : Nat} {op : Op} (ha : h.addNodeAfter I idx sibling op = some h') : IsTree h' := by
  unfold Hugr.addNodeAfter at ha
  cases h1 : h.addNode I idx op with
  | none => rw [h1] at ha; cases ha
  | some g => rw [h1] at ha; exact (insertAfter_tree (preTree_addNode ht h1) ha).1

end Verif.Graph
