import Mathlib.Data.List.Perm.Basic
import Verif.Graph.LinkProps

/-!
# C20, C22, C26: histories of edits
-/
namespace Verif.Graph

variable {Op Meta : Type}

/-! ## Preservation -/

theorem IsTree.congr {h h' : Hugr Op Meta} (ht : IsTree h) (hlive : h'.live = h.live)
    (hhier : h'.hier = h.hier) (hroot : h'.moduleRoot = h.moduleRoot)
    (hentry : h'.live h'.entrypoint = true) (hcap : h'.cap = h.cap) : IsTree h' := by
  refine ⟨?_, hentry, ?_, ?_, ?_, ?_, ?_, ?_, ?_⟩
  · rw [hlive, hroot]; exact ht.root_live
  · rw [hhier, hroot]; exact ht.root_top
  · rw [hlive, hhier, hroot]; exact ht.has_parent
  · rw [hlive, hhier]; exact ht.parent_live
  · rw [hhier]; exact ht.child_iff
  · rw [hhier]; exact ht.child_once
  · rw [hlive, hhier, hroot]; exact ht.reaches_root
  · rw [hlive, hcap]; exact ht.in_range

theorem IsTree.same {h h' : Hugr Op Meta} (ht : IsTree h) (hs : SameButPorts h h') : IsTree h' :=
  ht.congr hs.live hs.hier hs.moduleRoot (by rw [hs.live, hs.entrypoint]; exact ht.entry_live) hs.cap

theorem linksOk_congr {h h' : Hugr Op Meta} (hl : LinksOk h) (hlive : h'.live = h.live)
    (hins : h'.ins = h.ins) (houts : h'.outs = h.outs) (hlinks : h'.links = h.links) : LinksOk h' := by
  unfold LinksOk; rw [hlive, hins, houts, hlinks]; exact hl

theorem withHier_some {h h' : Hugr Op Meta} {r : Option Hier} (hw : h.withHier r = some h') :
    ∃ k, r = some k ∧ h' = { h with hier := k } := by
  cases r with
  | none => cases hw
  | some k => cases hw; exact ⟨k, rfl, rfl⟩

theorem withHier_linksOk {h h' : Hugr Op Meta} (hl : LinksOk h) {r : Option Hier}
    (hw : h.withHier r = some h') : LinksOk h' := by
  obtain ⟨k, _, rfl⟩ := withHier_some hw
  exact linksOk_congr hl rfl rfl rfl rfl

theorem addNode_linksOk {I : OpInfo Op} {h h1 : Hugr Op Meta} (hl : LinksOk h) {idx : Nat} {op : Op}
    (ha : h.addNode I idx op = some h1) : LinksOk h1 := by
  unfold Hugr.addNode at ha
  split at ha
  case isTrue => cases ha
  case isFalse hd =>
    cases ha
    intro l hm
    obtain ⟨a, b, c, d⟩ := hl l hm
    have h1 : l.src ≠ idx := fun e => hd (e ▸ a)
    have h2 : l.dst ≠ idx := fun e => hd (e ▸ c)
    simp only [upd, h1, h2, if_false]
    exact ⟨a, b, c, d⟩

theorem without_linksOk {h g : Hugr Op Meta} (hl : LinksOk h) {n : Nat} (hw : WithoutSubtree h n g) :
    LinksOk g := by
  intro l hm
  rw [hw.links, List.mem_filter, Bool.and_eq_true] at hm
  obtain ⟨h1, h2, h3⟩ := hm
  obtain ⟨_, b, _, d⟩ := hl l h1
  exact ⟨h2, by rw [(hw.ports _ h2).2]; exact b, h3, by rw [(hw.ports _ h3).1]; exact d⟩

/-- One documented call keeps the hierarchy a tree and the links in place. -/
theorem step_ok (I : OpInfo Op) {h h' : Hugr Op Meta} (ht : IsTree h) (hl : LinksOk h)
    (c : Cmd Op Meta) (hd : Documented h c) (hs : step I h c = some h') : IsTree h' ∧ LinksOk h' := by
  cases c with
  | setEntrypoint n =>
    simp only [step, Hugr.setEntrypoint] at hs
    split at hs
    case isFalse => cases hs
    case isTrue hn =>
      cases hs
      exact ⟨ht.congr rfl rfl rfl hn rfl, linksOk_congr hl rfl rfl rfl rfl⟩
  | addNodeWithParent idx parent op =>
    simp only [step] at hs
    refine ⟨addNodeWithParent_tree ht hd hs, ?_⟩
    unfold Hugr.addNodeWithParent at hs
    cases h1 : h.addNode I idx op with
    | none => rw [h1] at hs; cases hs
    | some g => rw [h1] at hs; exact withHier_linksOk (addNode_linksOk hl h1) hs
  | addNodeBefore idx sibling op =>
    simp only [step] at hs
    refine ⟨addNodeBefore_tree ht hs, ?_⟩
    unfold Hugr.addNodeBefore at hs
    cases h1 : h.addNode I idx op with
    | none => rw [h1] at hs; cases hs
    | some g => rw [h1] at hs; exact withHier_linksOk (addNode_linksOk hl h1) hs
  | addNodeAfter idx sibling op =>
    simp only [step] at hs
    refine ⟨addNodeAfter_tree ht hs, ?_⟩
    unfold Hugr.addNodeAfter at hs
    cases h1 : h.addNode I idx op with
    | none => rw [h1] at hs; cases hs
    | some g => rw [h1] at hs; exact withHier_linksOk (addNode_linksOk hl h1) hs
  | setParent n parent =>
    simp only [step] at hs
    refine ⟨(setParent_tree ht hs).1, ?_⟩
    rw [(setParent_tree ht hs).2.2]; exact linksOk_congr hl rfl rfl rfl rfl
  | moveBeforeSibling n s =>
    simp only [step] at hs
    obtain ⟨h1, _, q, _, h2⟩ := moveBefore_tree ht hs
    refine ⟨h1, ?_⟩
    rw [h2]; exact linksOk_congr hl rfl rfl rfl rfl
  | moveAfterSibling n s =>
    simp only [step] at hs
    obtain ⟨h1, _, q, _, h2⟩ := moveAfter_tree ht hs
    refine ⟨h1, ?_⟩
    rw [h2]; exact linksOk_congr hl rfl rfl rfl rfl
  | removeNode n =>
    simp only [step] at hs
    have hleaf : ∀ m, h.hier.parent m ≠ some n := by
      intro m hm
      have h1 : m ∈ h.children n := (ht.child_iff n m).2 hm
      rw [hd.2] at h1; simp at h1
    obtain ⟨h1, h2⟩ := removeNode_leaf_tree ht hl hd.1 hleaf hs
    exact ⟨h1, without_linksOk hl (rinv_without ht h2)⟩
  | removeSubtree n =>
    simp only [step] at hs
    rcases removeSubtree_full I ht hl n with ⟨g, h1, h2, _⟩ | ⟨h1, _⟩
    · rw [h1] at hs; cases hs
      exact ⟨rinv_tree ht hd h2, without_linksOk hl (rinv_without ht h2)⟩
    · rw [h1] at hs; cases hs
  | connect l =>
    simp only [step] at hs
    obtain ⟨hc1, hc2⟩ := C21_connect h l
    obtain ⟨hsame, _, _, _⟩ := hc2 h' hs
    refine ⟨ht.same hsame, ?_⟩
    obtain ⟨⟨a, b⟩, c, d⟩ := hc1.1 ⟨h', hs⟩
    unfold Hugr.connect at hs
    split at hs
    case isFalse => cases hs
    case isTrue =>
      cases hs
      intro x hx
      simp only [List.mem_append, List.mem_singleton] at hx
      rcases hx with hx | rfl
      · exact hl x hx
      · exact ⟨a, b, c, d⟩
  | disconnect n dir port =>
    simp only [step] at hs
    refine ⟨ht.same ((C21_disconnect h n dir port).2 h' hs).1, ?_⟩
    unfold Hugr.disconnect at hs
    split at hs
    case isFalse => cases hs
    case isTrue =>
      cases hs
      intro x hx
      exact hl x (List.mem_filter.1 hx).1
  | setNumPorts n i o =>
    simp only [step] at hs
    obtain ⟨h1, _, _, _, h5⟩ := C21_set_num_ports h h' hl n i o hs
    exact ⟨ht.same h1, (linksOk_iff h').2 h5⟩
  | addPorts n dir amount =>
    simp only [step] at hs
    cases ha : h.addPorts n dir amount with
    | none => rw [ha] at hs; cases hs
    | some q =>
      obtain ⟨g, r⟩ := q
      rw [ha] at hs; cases hs
      obtain ⟨h1, _, _, _, h5⟩ := C21_add_ports h g hl n dir amount r ha
      exact ⟨ht.same h1, (linksOk_iff g).2 h5⟩
  | insertPorts n dir index amount =>
    simp only [step] at hs
    cases ha : h.insertPorts n dir index amount with
    | none => rw [ha] at hs; cases hs
    | some q =>
      obtain ⟨g, r⟩ := q
      rw [ha] at hs; cases hs
      obtain ⟨h1, _, _, _, h5⟩ := C21_insert_ports h g hl n dir index amount r ha
      exact ⟨ht.same h1, h5⟩
  | replaceOp n op =>
    simp only [step, Hugr.replaceOp] at hs
    split at hs
    case isFalse => cases hs
    case isTrue =>
      cases hs
      exact ⟨ht.congr rfl rfl rfl ht.entry_live rfl, linksOk_congr hl rfl rfl rfl rfl⟩
  | setMetadata n k v =>
    simp only [step, Hugr.setMetadata] at hs
    split at hs
    case isFalse => cases hs
    case isTrue =>
      cases hs
      exact ⟨ht.congr rfl rfl rfl ht.entry_live rfl, linksOk_congr hl rfl rfl rfl rfl⟩
  | removeMetadata n k =>
    simp only [step, Hugr.removeMetadata] at hs
    split at hs
    case isFalse => cases hs
    case isTrue =>
      cases hs
      exact ⟨ht.congr rfl rfl rfl ht.entry_live rfl, linksOk_congr hl rfl rfl rfl rfl⟩

theorem new_tree (I : OpInfo Op) (m : Op) :
    IsTree (Hugr.new I m : Hugr Op Meta) ∧ LinksOk (Hugr.new I m : Hugr Op Meta) := by
  refine ⟨⟨rfl, rfl, rfl, ?_, ?_, ?_, ?_, ?_, ?_⟩, ?_⟩
  · intro n hn hne
    simp only [Hugr.new, beq_iff_eq] at hn hne
    exact absurd hn hne
  · intro n p hp; cases hp
  · intro p n; simp [Hugr.new]
  · intro p; simp [Hugr.new]
  · intro n hn
    simp only [Hugr.new, beq_iff_eq] at hn
    subst hn; exact .refl _
  · intro n hn
    simp only [Hugr.new, beq_iff_eq] at hn
    subst hn; simp [Hugr.new]
  · intro l hl; simp [Hugr.new] at hl

theorem run_ok (I : OpInfo Op) (cmds : List (Cmd Op Meta)) (h h' : Hugr Op Meta) (ht : IsTree h)
    (hl : LinksOk h) (hd : AllDocumented I h cmds) (hr : run I h cmds = some h') :
    IsTree h' ∧ LinksOk h' := by
  induction cmds generalizing h with
  | nil => cases hr; exact ⟨ht, hl⟩
  | cons c cs ih =>
    simp only [run] at hr
    cases hs : step I h c with
    | none => rw [hs] at hr; cases hr
    | some h1 =>
      rw [hs] at hr
      obtain ⟨h2, h3⟩ := step_ok I ht hl c hd.1 hs
      exact ih h1 h2 h3 (hd.2 h1 hs) hr

/-! ## C20 -/

/-- **C20** (partial) After every history of calls, made as documented, on a fresh Hugr, with every
choice of indices for new nodes, the hierarchy is a tree and the links connect existing ports.

Missing from the full statement: calls the documentation forbids but the code accepts
(`C20_module_root_refuted`, `C20_dead_parent_refuted`, `C20_orphan_refuted`). -/
theorem C20_tree_partial (I : OpInfo Op) (m : Op) (cmds : List (Cmd Op Meta)) (h : Hugr Op Meta)
    (hr : run I (Hugr.new I m) cmds = some h) (hd : AllDocumented I (Hugr.new I m) cmds) :
    IsTree h ∧ LinksOk h :=
  run_ok I cmds _ h (new_tree I m).1 (new_tree I m).2 hd hr

/-- In a tree with a given hierarchy: `h'` differs from `h` only in that `n` became a child of `q`,
whose children are now `cs`. -/
structure MovedTo (h : Hugr Op Meta) (n q : Nat) (cs : List Nat) (h' : Hugr Op Meta) : Prop where
  parent : ∀ m, h'.hier.parent m = if m = n then some q else h.hier.parent m
  target : h'.hier.children q = cs
  others : ∀ m, m ≠ q → h'.hier.children m = (h.hier.children m).filter (· ≠ n)
  rest : h' = { h with hier := h'.hier }

theorem movedTo_attach {h : Hugr Op Meta} (ht : IsTree h) (n q : Nat) (cs : List Nat) :
    MovedTo h n q cs { h with hier := (h.hier.detach n).attach n q cs } := by
  refine ⟨?_, ?_, ?_, rfl⟩
  · intro m
    simp only [Hier.attach, detach_parent, upd]
    split <;> rfl
  · simp [Hier.attach, upd]
  · intro m hm
    simp only [Hier.attach]
    rw [upd_ne _ _ hm, detach_children ht.ok, (ht.child_once m).erase_eq_filter]
    apply List.filter_congr
    intro x _
    by_cases hx : x = n <;> simp [hx]

theorem above_detach_iff (parent : Nat → Option Nat) (q n : Nat) :
    Above (upd parent n none) q n ↔ Above parent q n := by
  constructor
  · apply Above.mono
    intro a b hab
    unfold upd at hab
    split at hab
    · cases hab
    · exact hab
  · intro h
    rcases above_cut n h with h | h <;> exact h

theorem canAttach_detach {h : Hugr Op Meta} (ht : IsTree h) (n q : Nat) (hn : n ≠ h.moduleRoot)
    (hl : h.live n = true) :
    (h.hier.detach n).canAttach h.cap n q = true ↔ ¬ Above h.hier.parent q n := by
  have hp := preTree_detach ht hl hn
  unfold Hier.canAttach
  have h1 := hp.onPath_iff q n
  simp only [detach_parent] at h1
  rw [above_detach_iff] at h1
  simp only [detach_parent, upd_same, Option.isNone_none, Bool.true_and, Bool.not_eq_true',
    ← Bool.not_eq_true, h1]

/-- **C20** `set_parent` succeeds exactly if both nodes are live and the new parent is not the node
or below it; the node is then the last child of its new parent, and nothing else changes. -/
theorem C20_set_parent (h : Hugr Op Meta) (ht : IsTree h) (n q : Nat) :
    ((∃ h', h.setParent n q = some h') ↔
      h.live n = true ∧ h.live q = true ∧ ¬ Above h.hier.parent q n) ∧
    ∀ h', h.setParent n q = some h' →
      IsTree h' ∧ MovedTo h n q ((h.hier.children q).filter (· ≠ n) ++ [n]) h' := by
  have herase : (h.hier.children q).erase n = (h.hier.children q).filter (· ≠ n) := by
    rw [(ht.child_once q).erase_eq_filter]
    apply List.filter_congr
    intro x _
    by_cases hx : x = n <;> simp [hx]
  constructor
  · constructor
    · rintro ⟨h', hs⟩
      have hr := (setParent_tree ht hs).2.1
      unfold Hugr.setParent at hs
      split at hs
      case isFalse => cases hs
      case isTrue hc =>
        simp only [Bool.and_eq_true] at hc
        refine ⟨hc.2, hc.1, ?_⟩
        rw [← canAttach_detach ht n q hr hc.2]
        obtain ⟨k, hk, _⟩ := withHier_some hs
        unfold Hier.pushChild at hk
        split at hk
        case isTrue h1 => exact h1
        case isFalse => cases hk
    · rintro ⟨h1, h2, h3⟩
      have hr : n ≠ h.moduleRoot := fun e => h3 (e ▸ ht.reaches_root q h2)
      unfold Hugr.setParent
      rw [h1, h2]
      simp only [Bool.and_self, if_true, Hier.pushChild]
      rw [if_pos ((canAttach_detach ht n q hr h1).2 h3)]
      exact ⟨_, rfl⟩
  · intro h' hs
    obtain ⟨h1, _, h3⟩ := setParent_tree ht hs
    refine ⟨h1, ?_⟩
    rw [h3, ← herase]
    exact movedTo_attach ht n q _

/-- `insertBeforeIn` puts `n` just before `s`. -/
theorem insertBeforeIn_split {s n : Nat} {l : List Nat} (hs : s ∈ l) :
    ∃ a b, l = a ++ s :: b ∧ insertBeforeIn s n l = a ++ n :: s :: b := by
  induction l with
  | nil => simp at hs
  | cons x l ih =>
    by_cases hx : x = s
    · subst hx; exact ⟨[], l, rfl, by simp [insertBeforeIn]⟩
    · have : s ∈ l := by
        rcases List.mem_cons.1 hs with e | e
        · exact absurd e.symm hx
        · exact e
      obtain ⟨a, b, h1, h2⟩ := ih this
      exact ⟨x :: a, b, by rw [h1]; rfl, by simp only [insertBeforeIn]; rw [if_neg hx, h2]; rfl⟩

theorem insertAfterIn_split {s n : Nat} {l : List Nat} (hs : s ∈ l) :
    ∃ a b, l = a ++ s :: b ∧ insertAfterIn s n l = a ++ s :: n :: b := by
  induction l with
  | nil => simp at hs
  | cons x l ih =>
    by_cases hx : x = s
    · subst hx; exact ⟨[], l, rfl, by simp [insertAfterIn]⟩
    · have : s ∈ l := by
        rcases List.mem_cons.1 hs with e | e
        · exact absurd e.symm hx
        · exact e
      obtain ⟨a, b, h1, h2⟩ := ih this
      exact ⟨x :: a, b, by rw [h1]; rfl, by simp only [insertAfterIn]; rw [if_neg hx, h2]; rfl⟩

/-- When a node can be moved beside another one. -/
def MovableBeside (h : Hugr Op Meta) (n s : Nat) : Prop :=
  h.live n = true ∧ n ≠ h.entrypoint ∧ h.live s = true ∧ s ≠ h.entrypoint ∧ n ≠ s ∧
  ∃ q, h.hier.parent s = some q ∧ ¬ Above h.hier.parent q n

theorem movable_iff {h : Hugr Op Meta} (ht : IsTree h) (n s : Nat)
    (hv : (h.validNonEntrypoint n && h.validNonEntrypoint s) = true) :
    MovableBeside h n s ↔ ∃ q, (h.hier.detach n).parent s = some q ∧
      (h.hier.detach n).canAttach h.cap n q = true := by
  simp only [Hugr.validNonEntrypoint, Bool.and_eq_true, bne_iff_ne] at hv
  constructor
  · rintro ⟨h1, _, _, _, h5, q, h6, h7⟩
    have hr : n ≠ h.moduleRoot := fun e => h7 (e ▸ ht.reaches_root q (ht.parent_live s q h6).2)
    refine ⟨q, ?_, (canAttach_detach ht n q hr h1).2 h7⟩
    rw [detach_parent, upd_ne _ _ (Ne.symm h5)]; exact h6
  · rintro ⟨q, h1, h2⟩
    have hne : n ≠ s := by
      rintro rfl
      rw [detach_parent, upd_same] at h1; cases h1
    rw [detach_parent, upd_ne _ _ (Ne.symm hne)] at h1
    have hr : n ≠ h.moduleRoot := by
      rintro rfl
      rw [root_not_attachable ht q (ht.parent_live s q h1).2] at h2; cases h2
    exact ⟨hv.1.1, hv.1.2, hv.2.1, hv.2.2, hne, q, h1, (canAttach_detach ht n q hr hv.1.1).1 h2⟩

/-- **C20** `move_before_sibling`: when it succeeds, the node becomes a child of the sibling's
parent, just before the sibling, and nothing else changes. -/
theorem C20_move_before (h : Hugr Op Meta) (ht : IsTree h) (n s : Nat) :
    ((∃ h', h.moveBeforeSibling n s = some h') ↔ MovableBeside h n s) ∧
    ∀ h', h.moveBeforeSibling n s = some h' → IsTree h' ∧
      ∃ q a b, h.hier.parent s = some q ∧ (h.hier.children q).filter (· ≠ n) = a ++ s :: b ∧
        MovedTo h n q (a ++ n :: s :: b) h' := by
  have hiff : (∃ h', h.moveBeforeSibling n s = some h') ↔ MovableBeside h n s := by
    unfold Hugr.moveBeforeSibling
    by_cases hv : (h.validNonEntrypoint n && h.validNonEntrypoint s) = true
    · rw [if_pos hv, movable_iff ht n s hv]
      constructor
      · rintro ⟨h', hs⟩
        obtain ⟨k, hk, _⟩ := withHier_some hs
        unfold Hier.insertBefore at hk
        cases hp : (h.hier.detach n).parent s with
        | none => rw [hp] at hk; cases hk
        | some q =>
          rw [hp] at hk
          simp only [] at hk
          split at hk
          case isTrue h1 => exact ⟨q, rfl, h1⟩
          case isFalse => cases hk
      · rintro ⟨q, h1, h2⟩
        unfold Hier.insertBefore
        rw [h1]; simp only []; rw [if_pos h2]; exact ⟨_, rfl⟩
    · rw [if_neg hv]
      constructor
      · rintro ⟨_, hs⟩; cases hs
      · rintro ⟨h1, h2, h3, h4, _⟩
        exfalso; apply hv
        simp [Hugr.validNonEntrypoint, h1, h2, h3, h4]
  refine ⟨hiff, fun h' hs => ?_⟩
  obtain ⟨_, _, _, _, hne, _⟩ := hiff.1 ⟨h', hs⟩
  obtain ⟨h1, _, q, h2, h3⟩ := moveBefore_tree ht hs
  have herase : (h.hier.children q).erase n = (h.hier.children q).filter (· ≠ n) := by
    rw [(ht.child_once q).erase_eq_filter]
    apply List.filter_congr
    intro x _
    by_cases hx : x = n <;> simp [hx]
  have hmem : s ∈ (h.hier.children q).erase n := by
    rw [(ht.child_once q).mem_erase_iff]; exact ⟨Ne.symm hne, (ht.child_iff q s).2 h2⟩
  obtain ⟨a, b, h4, h5⟩ := insertBeforeIn_split (n := n) hmem
  refine ⟨h1, q, a, b, h2, by rw [← herase]; exact h4, ?_⟩
  rw [h3, h5]; exact movedTo_attach ht n q _

/-- **C20** `move_after_sibling`: when it succeeds, the node becomes a child of the sibling's
parent, just after the sibling, and nothing else changes. -/
theorem C20_move_after (h : Hugr Op Meta) (ht : IsTree h) (n s : Nat) :
    ((∃ h', h.moveAfterSibling n s = some h') ↔ MovableBeside h n s) ∧
    ∀ h', h.moveAfterSibling n s = some h' → IsTree h' ∧
      ∃ q a b, h.hier.parent s = some q ∧ (h.hier.children q).filter (· ≠ n) = a ++ s :: b ∧
        MovedTo h n q (a ++ s :: n :: b) h' := by
  have hiff : (∃ h', h.moveAfterSibling n s = some h') ↔ MovableBeside h n s := by
    unfold Hugr.moveAfterSibling
    by_cases hv : (h.validNonEntrypoint n && h.validNonEntrypoint s) = true
    · rw [if_pos hv, movable_iff ht n s hv]
      constructor
      · rintro ⟨h', hs⟩
        obtain ⟨k, hk, _⟩ := withHier_some hs
        unfold Hier.insertAfter at hk
        cases hp : (h.hier.detach n).parent s with
        | none => rw [hp] at hk; cases hk
        | some q =>
          rw [hp] at hk
          simp only [] at hk
          split at hk
          case isTrue h1 => exact ⟨q, rfl, h1⟩
          case isFalse => cases hk
      · rintro ⟨q, h1, h2⟩
        unfold Hier.insertAfter
        rw [h1]; simp only []; rw [if_pos h2]; exact ⟨_, rfl⟩
    · rw [if_neg hv]
      constructor
      · rintro ⟨_, hs⟩; cases hs
      · rintro ⟨h1, h2, h3, h4, _⟩
        exfalso; apply hv
        simp [Hugr.validNonEntrypoint, h1, h2, h3, h4]
  refine ⟨hiff, fun h' hs => ?_⟩
  obtain ⟨_, _, _, _, hne, _⟩ := hiff.1 ⟨h', hs⟩
  obtain ⟨h1, _, q, h2, h3⟩ := moveAfter_tree ht hs
  have herase : (h.hier.children q).erase n = (h.hier.children q).filter (· ≠ n) := by
    rw [(ht.child_once q).erase_eq_filter]
    apply List.filter_congr
    intro x _
    by_cases hx : x = n <;> simp [hx]
  have hmem : s ∈ (h.hier.children q).erase n := by
    rw [(ht.child_once q).mem_erase_iff]; exact ⟨Ne.symm hne, (ht.child_iff q s).2 h2⟩
  obtain ⟨a, b, h4, h5⟩ := insertAfterIn_split (n := n) hmem
  refine ⟨h1, q, a, b, h2, by rw [← herase]; exact h4, ?_⟩
  rw [h3, h5]; exact movedTo_attach ht n q _

/-- What a fresh node looks like after it was added below `q`, whose children are now `cs`. -/
structure AddedTo (I : OpInfo Op) (h : Hugr Op Meta) (n q : Nat) (op : Op) (cs : List Nat)
    (h' : Hugr Op Meta) : Prop where
  fresh : h.live n = false
  live : ∀ m, h'.live m = (decide (m = n) || h.live m)
  operation : h'.ops n = op
  ports : h'.ins n = I.inputs op ∧ h'.outs n = I.outputs op
  parent : h'.hier.parent n = some q
  no_children : h'.hier.children n = []
  target : h'.hier.children q = cs
  others : ∀ m, m ≠ n → h'.ops m = h.ops m ∧ h'.ins m = h.ins m ∧ h'.outs m = h.outs m ∧
    h'.hier.parent m = h.hier.parent m ∧ (m ≠ q → h'.hier.children m = h.hier.children m)
  links : h'.links = h.links
  metadata : h'.metadata = h.metadata
  roots : h'.moduleRoot = h.moduleRoot ∧ h'.entrypoint = h.entrypoint

theorem addedTo_attach {I : OpInfo Op} {h g : Hugr Op Meta} (ht : IsTree h) {n q : Nat} {op : Op}
    (ha : h.addNode I n op = some g) (hq : h.live q = true) (cs : List Nat) :
    AddedTo I h n q op cs { g with hier := g.hier.attach n q cs } := by
  unfold Hugr.addNode at ha
  split at ha
  case isTrue => cases ha
  case isFalse hd =>
    simp only [Bool.not_eq_true] at hd
    cases ha
    have hnq : n ≠ q := fun e => by rw [e, hq] at hd; cases hd
    refine ⟨hd, ?_, ?_, ?_, ?_, ?_, ?_, ?_, rfl, rfl, rfl, rfl⟩
    · intro m
      simp only [upd]
      by_cases hm : m = n <;> simp [hm]
    · simp [upd]
    · simp [upd]
    · simp [Hier.attach, upd]
    · simp only [Hier.attach]; rw [upd_ne _ _ hnq]; exact (ht.dead hd).2
    · simp [Hier.attach, upd]
    · intro m hm
      simp only [Hier.attach, upd_ne _ _ hm, true_and]
      intro hmq; rw [upd_ne _ _ hmq]

/-- **C20** `add_node_with_parent` below a live node: a fresh node with the ports of its operation,
last among the children of its parent. -/
theorem C20_add_node (I : OpInfo Op) (h h' : Hugr Op Meta) (ht : IsTree h) (n q : Nat) (op : Op)
    (hq : h.live q = true) (hs : h.addNodeWithParent I n q op = some h') :
    AddedTo I h n q op (h.hier.children q ++ [n]) h' := by
  unfold Hugr.addNodeWithParent at hs
  cases h1 : h.addNode I n op with
  | none => rw [h1] at hs; cases hs
  | some g =>
    rw [h1] at hs
    have hgl : g.live q = true ∧ g.hier = h.hier := by
      unfold Hugr.addNode at h1
      split at h1
      · cases h1
      · cases h1
        refine ⟨?_, rfl⟩
        simp only [upd]
        split
        · rfl
        · exact hq
    obtain ⟨_, h2⟩ := pushChild_tree (preTree_addNode ht h1) hgl.1 hs
    rw [h2, hgl.2]
    have := addedTo_attach ht h1 hq (h.hier.children q ++ [n])
    rw [hgl.2] at this; exact this

/-- **C20** `add_node_before`: a fresh node just before the sibling. -/
theorem C20_add_node_before (I : OpInfo Op) (h h' : Hugr Op Meta) (ht : IsTree h) (n s : Nat) (op : Op)
    (hs : h.addNodeBefore I n s op = some h') :
    ∃ q a b, h.hier.parent s = some q ∧ h.hier.children q = a ++ s :: b ∧
      AddedTo I h n q op (a ++ n :: s :: b) h' := by
  unfold Hugr.addNodeBefore at hs
  cases h1 : h.addNode I n op with
  | none => rw [h1] at hs; cases hs
  | some g =>
    rw [h1] at hs
    have hg : g.hier = h.hier := by
      unfold Hugr.addNode at h1
      split at h1
      · cases h1
      · cases h1; rfl
    obtain ⟨_, q, h2, h3⟩ := insertBefore_tree (preTree_addNode ht h1) hs
    rw [hg] at h2 h3
    obtain ⟨a, b, h4, h5⟩ := insertBeforeIn_split (n := n) ((ht.child_iff q s).2 h2)
    refine ⟨q, a, b, h2, h4, ?_⟩
    rw [h3, h5]
    have := addedTo_attach ht h1 (ht.parent_live s q h2).2 (a ++ n :: s :: b)
    rw [hg] at this; exact this

/-- **C20** `add_node_after`: a fresh node just after the sibling. -/
theorem C20_add_node_after (I : OpInfo Op) (h h' : Hugr Op Meta) (ht : IsTree h) (n s : Nat) (op : Op)
    (hs : h.addNodeAfter I n s op = some h') :
    ∃ q a b, h.hier.parent s = some q ∧ h.hier.children q = a ++ s :: b ∧
      AddedTo I h n q op (a ++ s :: n :: b) h' := by
  unfold Hugr.addNodeAfter at hs
  cases h1 : h.addNode I n op with
  | none => rw [h1] at hs; cases hs
  | some g =>
    rw [h1] at hs
    have hg : g.hier = h.hier := by
      unfold Hugr.addNode at h1
      split at h1
      · cases h1
      · cases h1; rfl
    obtain ⟨_, q, h2, h3⟩ := insertAfter_tree (preTree_addNode ht h1) hs
    rw [hg] at h2 h3
    obtain ⟨a, b, h4, h5⟩ := insertAfterIn_split (n := n) ((ht.child_iff q s).2 h2)
    refine ⟨q, a, b, h2, h4, ?_⟩
    rw [h3, h5]
    have := addedTo_attach ht h1 (ht.parent_live s q h2).2 (a ++ s :: n :: b)
    rw [hg] at this; exact this

/-! ### A concrete history, and what goes wrong without the documented conditions -/

/-- Operations with fixed numbers of ports: the number itself on both sides. -/
def demoInfo : OpInfo Nat := { default := 0, inputs := id, outputs := id }

/-- Build, move, link, renumber, remove. -/
def demoHistory : List (Cmd Nat String) :=
  [ .addNodeWithParent 1 0 2, .addNodeWithParent 2 1 1, .addNodeBefore 3 2 2, .addNodeAfter 4 3 1,
    .connect ⟨3, 1, 2, 0⟩, .connect ⟨4, 0, 2, 0⟩, .insertPorts 3 .outgoing 1 2,
    .setEntrypoint 2, .moveAfterSibling 3 4, .setMetadata 4 "k" "v", .addNodeWithParent 5 4 0,
    .removeNode 5, .addNodeWithParent 5 0 1, .setParent 5 1, .removeSubtree 4 ]

/-- The live nodes, the children of node 1 and the links after the demonstration. -/
example : (run demoInfo (Hugr.new demoInfo 0) demoHistory).map
    (fun h => (h.nodes, h.children 1, h.links)) =
    some ([0, 1, 2, 3, 5], [3, 2, 5], [⟨3, 3, 2, 0⟩]) := by decide +kernel

/-- The demonstration is made as documented: `C20_tree_partial` applies to it. -/
example : AllDocumented demoInfo (Hugr.new demoInfo 0) demoHistory := by decide +kernel

/-- **C20** Finding: `remove_node` accepts the module root (the documentation says it panics) whenever
the entrypoint is another node. After that the module root is not live. -/
theorem C20_module_root_refuted :
    ∃ h : Hugr Nat String,
      run demoInfo (Hugr.new demoInfo 0)
        [.addNodeWithParent 1 0 2, .setEntrypoint 1, .removeNode 0] = some h ∧
      h.live h.moduleRoot = false :=
  ⟨_, rfl, by decide +kernel⟩

/-- **C20** Finding: `add_node_with_parent` accepts a parent that is not in the graph (the
documentation says it panics). The new node does not reach the module root. -/
theorem C20_dead_parent_refuted :
    ∃ h : Hugr Nat String,
      run demoInfo (Hugr.new demoInfo 0) [.addNodeWithParent 1 7 2] = some h ∧
      h.live 1 = true ∧ ¬ Above h.hier.parent 1 h.moduleRoot := by
  refine ⟨_, rfl, by decide +kernel, ?_⟩
  intro ha
  cases ha with
  | step h1 h2 =>
    simp [Hugr.new, upd] at h1
    subst h1
    have := h2.eq_of_top (by decide +kernel)
    simp [Hugr.new] at this

/-- **C20** Finding: removing a node alone leaves its children without parent, not reaching the
module root. -/
theorem C20_orphan_refuted :
    ∃ h : Hugr Nat String,
      run demoInfo (Hugr.new demoInfo 0)
        [.addNodeWithParent 1 0 2, .addNodeWithParent 2 1 2, .removeNode 1] = some h ∧
      h.live 2 = true ∧ ¬ Above h.hier.parent 2 h.moduleRoot := by
  refine ⟨_, rfl, by decide +kernel, ?_⟩
  intro ha
  have := ha.eq_of_top (by decide +kernel)
  simp [Hugr.new] at this

/-! ## C22 -/

/-- **C22** `remove_subtree` succeeds exactly if the node is live and the entrypoint is not in its
subtree. Then exactly the nodes below it are gone; of every other node the parent, the children
(without the removed one), the operation, the ports and the metadata are unchanged; and the links
left are those between nodes that are left. -/
theorem C22_remove_subtree (I : OpInfo Op) (h : Hugr Op Meta) (ht : IsTree h) (hl : LinksOk h)
    (n : Nat) :
    ((∃ g, h.removeSubtree I n = some g) ↔
      h.live n = true ∧ ¬ Above h.hier.parent h.entrypoint n) ∧
    ∀ g, h.removeSubtree I n = some g →
      WithoutSubtree h n g ∧ LinksOk g ∧ (n ≠ h.moduleRoot → IsTree g) := by
  rcases removeSubtree_full I ht hl n with ⟨g, h1, h2, h3, h4⟩ | ⟨h1, h2⟩
  · rw [h1]
    refine ⟨⟨fun _ => ⟨h3, h4⟩, fun _ => ⟨g, rfl⟩⟩, ?_⟩
    intro g' hg; cases hg
    exact ⟨rinv_without ht h2, without_linksOk hl (rinv_without ht h2),
      fun hr => rinv_tree ht hr h2⟩
  · rw [h1]
    refine ⟨⟨?_, ?_⟩, ?_⟩
    · rintro ⟨_, hs⟩; cases hs
    · rintro ⟨h3, h4⟩
      rcases h2 with h2 | h2
      · rw [h3] at h2; cases h2
      · exact absurd h2 h4
    · rintro _ hs; cases hs

/-- A tree of three levels with a link leaving the removed part. -/
example : (run demoInfo (Hugr.new demoInfo 0 : Hugr Nat String)
    [.addNodeWithParent 1 0 1, .addNodeWithParent 2 1 1, .addNodeWithParent 3 2 1,
     .addNodeWithParent 4 0 1, .connect ⟨3, 0, 4, 0⟩, .connect ⟨4, 0, 4, 0⟩, .removeSubtree 1]).map
    (fun h => (h.nodes, h.children 0, h.links)) = some ([0, 4], [4], [⟨4, 0, 4, 0⟩]) := by
  decide +kernel

/-! ## C21: what the returned range means -/

/-- **C21** Finding: `insert_ports` beyond the last port returns a range that is not the range of
the new ports. -/
theorem C21_insert_range_refuted :
    ∃ (h h' : Hugr Nat String) (r : Nat × Nat),
      run demoInfo (Hugr.new demoInfo 0) [.addNodeWithParent 1 0 1] = some h ∧
      h.insertPorts 1 .outgoing 5 2 = some (h', r) ∧ r = (5, 7) ∧ h'.numPorts 1 .outgoing = 3 :=
  ⟨_, _, _, rfl, rfl, rfl, by decide +kernel⟩

/-- A link is shifted, one before the insertion point is not. -/
example : (run demoInfo (Hugr.new demoInfo 0 : Hugr Nat String)
    [.addNodeWithParent 1 0 3, .addNodeWithParent 2 0 3, .connect ⟨1, 0, 2, 0⟩, .connect ⟨1, 1, 2, 1⟩,
     .connect ⟨1, 2, 1, 2⟩, .insertPorts 1 .outgoing 1 2]).map
    (fun h => (h.numPorts 1 .outgoing, h.links)) =
    some (5, [⟨1, 0, 2, 0⟩, ⟨1, 4, 1, 2⟩, ⟨1, 3, 2, 1⟩]) := by
  decide +kernel

/-! ## C26 -/

/-- The index of the node a call creates. -/
def Cmd.created : Cmd Op Meta → Option Nat
  | .addNodeWithParent idx _ _ | .addNodeBefore idx _ _ | .addNodeAfter idx _ _ => some idx
  | _ => none

theorem lookup_metaInsert (k k' : String) (v : Meta) (m : List (String × Meta)) :
    (metaInsert k v m).lookup k' = if k' = k then some v else m.lookup k' := by
  induction m with
  | nil =>
    simp only [metaInsert, List.lookup_cons, List.lookup_nil]
    by_cases h : k' = k
    · simp [h]
    · have : (k' == k) = false := by simpa using h
      simp [h, this]
  | cons e m ih =>
    obtain ⟨k0, v0⟩ := e
    simp only [metaInsert]
    by_cases h0 : k0 = k
    · subst h0
      simp only [if_true, List.lookup_cons]
      by_cases h : k' = k0
      · simp [h]
      · have : (k' == k0) = false := by simpa using h
        simp [h, this]
    · simp only [h0, if_false, List.lookup_cons, ih]
      by_cases h : k' = k0
      · subst h; simp [h0]
      · have : (k' == k0) = false := by simpa using h
        simp [this]

theorem lookup_metaRemove (k k' : String) (m : List (String × Meta)) :
    (m.filter fun e => e.1 != k).lookup k' = if k' = k then none else m.lookup k' := by
  induction m with
  | nil => simp
  | cons e m ih =>
    obtain ⟨k0, v0⟩ := e
    simp only [List.filter_cons, List.lookup_cons]
    by_cases h0 : k0 = k
    · subst h0
      simp only [bne_self_eq_false]
      rw [if_neg (by simp), ih]
      by_cases h : k' = k0
      · simp [h]
      · have : (k' == k0) = false := by simpa using h
        simp [h, this]
    · have : (k0 != k) = true := by simpa using h0
      simp only [this, if_true, List.lookup_cons, ih]
      by_cases h : k' = k0
      · subst h; simp [h0]
      · have : (k' == k0) = false := by simpa using h
        simp [this]

/-- The metadata of a call that neither creates nodes nor edits metadata. -/
theorem step_metadata (I : OpInfo Op) {h h' : Hugr Op Meta} (c : Cmd Op Meta)
    (hs : step I h c = some h') :
    h'.metadata = match c with
      | .setMetadata n k v => upd h.metadata n (some (metaInsert k v ((h.metadata n).getD [])))
      | .removeMetadata n k =>
        upd h.metadata n (some (((h.metadata n).getD []).filter fun e => e.1 != k))
      | _ => h.metadata := by
  have hadd : ∀ {g g' : Hugr Op Meta} {idx : Nat} {op : Op}, g.addNode I idx op = some g' →
      g'.metadata = g.metadata := by
    intro g g' idx op ha
    unfold Hugr.addNode at ha
    split at ha
    · cases ha
    · cases ha; rfl
  have hwith : ∀ {g g' : Hugr Op Meta} {r : Option Hier}, g.withHier r = some g' →
      g'.metadata = g.metadata := by
    intro g g' r hw
    obtain ⟨k, _, rfl⟩ := withHier_some hw
    rfl
  have hrem : ∀ {g g' : Hugr Op Meta} {n : Nat}, g.removeNode I n = some g' →
      g'.metadata = g.metadata := by
    intro g g' n hr
    unfold Hugr.removeNode at hr
    split at hr
    · cases hr; rfl
    · cases hr
  have hq : ∀ (fuel : Nat) (g g' : Hugr Op Meta) (Q : List Nat),
      g.removeQueue I fuel Q = some g' → g'.metadata = g.metadata := by
    intro fuel
    induction fuel with
    | zero =>
      intro g g' Q hr
      cases Q with
      | nil => simp only [Hugr.removeQueue, Option.some.injEq] at hr; rw [hr]
      | cons q Q => simp [Hugr.removeQueue] at hr
    | succ fuel ih =>
      intro g g' Q hr
      cases Q with
      | nil => simp only [Hugr.removeQueue, Option.some.injEq] at hr; rw [hr]
      | cons q Q =>
        simp only [Hugr.removeQueue] at hr
        cases h1 : g.removeNode I q with
        | none => rw [h1] at hr; cases hr
        | some g1 => rw [h1] at hr; rw [ih g1 g' _ hr, hrem h1]
  have hshift : ∀ (ps : List Nat) (n : Nat) (dir : Dir) (a : Nat) (g : Hugr Op Meta),
      (ps.foldl (fun g p => g.shiftPort n dir a p) g).metadata = g.metadata :=
    fun ps n dir a g => (shiftFold_same n dir a ps g).1.metadata
  have hports : ∀ {g g' : Hugr Op Meta} {n : Nat} {dir : Dir} {a : Int} {r : Nat × Nat},
      g.addPorts n dir a = some (g', r) → g'.metadata = g.metadata := by
    intro g g' n dir a r ha
    unfold Hugr.addPorts at ha
    split at ha
    · cases dir <;> cases ha <;> rfl
    · cases ha
  cases c with
  | setEntrypoint n =>
    simp only [step, Hugr.setEntrypoint] at hs
    split at hs <;> cases hs; rfl
  | addNodeWithParent idx p op =>
    simp only [step, Hugr.addNodeWithParent] at hs
    cases h1 : h.addNode I idx op with
    | none => rw [h1] at hs; cases hs
    | some g => rw [h1] at hs; simp only []; rw [hwith hs, hadd h1]
  | addNodeBefore idx p op =>
    simp only [step, Hugr.addNodeBefore] at hs
    cases h1 : h.addNode I idx op with
    | none => rw [h1] at hs; cases hs
    | some g => rw [h1] at hs; simp only []; rw [hwith hs, hadd h1]
  | addNodeAfter idx p op =>
    simp only [step, Hugr.addNodeAfter] at hs
    cases h1 : h.addNode I idx op with
    | none => rw [h1] at hs; cases hs
    | some g => rw [h1] at hs; simp only []; rw [hwith hs, hadd h1]
  | setParent n p =>
    simp only [step, Hugr.setParent] at hs
    split at hs
    · exact hwith hs
    · cases hs
  | moveBeforeSibling n p =>
    simp only [step, Hugr.moveBeforeSibling] at hs
    split at hs
    · exact hwith hs
    · cases hs
  | moveAfterSibling n p =>
    simp only [step, Hugr.moveAfterSibling] at hs
    split at hs
    · exact hwith hs
    · cases hs
  | removeNode n => exact hrem hs
  | removeSubtree n =>
    simp only [step, Hugr.removeSubtree] at hs
    split at hs
    · exact hq _ _ _ _ hs
    · cases hs
  | connect l =>
    simp only [step, Hugr.connect] at hs
    split at hs <;> cases hs; rfl
  | disconnect n dir port =>
    simp only [step, Hugr.disconnect] at hs
    split at hs <;> cases hs; rfl
  | setNumPorts n i o =>
    simp only [step, Hugr.setNumPorts] at hs
    split at hs <;> cases hs; rfl
  | addPorts n dir a =>
    simp only [step] at hs
    cases h1 : h.addPorts n dir a with
    | none => rw [h1] at hs; cases hs
    | some q => obtain ⟨g, r⟩ := q; rw [h1] at hs; cases hs; exact hports h1
  | insertPorts n dir i a =>
    simp only [step, Hugr.insertPorts] at hs
    cases h1 : h.addPorts n dir a with
    | none => rw [h1] at hs; cases hs
    | some q =>
      obtain ⟨g, r⟩ := q; rw [h1] at hs; cases hs
      simp only []
      rw [hshift, hports h1]
  | replaceOp n op =>
    simp only [step, Hugr.replaceOp] at hs
    split at hs <;> cases hs; rfl
  | setMetadata n k v =>
    simp only [step, Hugr.setMetadata] at hs
    split at hs <;> cases hs; rfl
  | removeMetadata n k =>
    simp only [step, Hugr.removeMetadata] at hs
    split at hs <;> cases hs; rfl

/-- The values of the metadata, whether or not the node is live. -/
def Hugr.metaAt (h : Hugr Op Meta) (n : Nat) (k : String) : Option Meta :=
  ((h.metadata n).getD []).lookup k

/-- **C26** Setting or removing a key of a node changes the value of that key of that node, and no
other. -/
theorem C26_set (I : OpInfo Op) (h h' : Hugr Op Meta) (n : Nat) (k : String) (v : Meta) :
    (step I h (.setMetadata n k v) = some h' → ∀ m j, h.live m = true →
      h'.getMetadata m j = some (if m = n ∧ j = k then some v else h.metaAt m j)) ∧
    (step I h (.removeMetadata n k) = some h' → ∀ m j, h.live m = true →
      h'.getMetadata m j = some (if m = n ∧ j = k then none else h.metaAt m j)) := by
  constructor
  · intro hs m j hm
    have hmeta := step_metadata I _ hs
    have hlive : h'.live = h.live := by
      simp only [step, Hugr.setMetadata] at hs
      split at hs <;> cases hs; rfl
    simp only [] at hmeta
    unfold Hugr.getMetadata Hugr.metaAt
    rw [hlive, hm, if_pos rfl, hmeta]
    by_cases e : m = n
    · subst e; simp [upd_same, lookup_metaInsert]
    · simp [upd_ne _ _ e, e]
  · intro hs m j hm
    have hmeta := step_metadata I _ hs
    have hlive : h'.live = h.live := by
      simp only [step, Hugr.removeMetadata] at hs
      split at hs <;> cases hs; rfl
    simp only [] at hmeta
    unfold Hugr.getMetadata Hugr.metaAt
    rw [hlive, hm, if_pos rfl, hmeta]
    by_cases e : m = n
    · subst e; simp [upd_same, lookup_metaRemove]
    · simp [upd_ne _ _ e, e]

/-- Only a created node becomes live. -/
theorem step_live (I : OpInfo Op) {h h' : Hugr Op Meta} (c : Cmd Op Meta)
    (hs : step I h c = some h') {n : Nat} (hn : h'.live n = true) :
    h.live n = true ∨ c.created = some n := by
  have hadd : ∀ {g g' : Hugr Op Meta} {idx : Nat} {op : Op}, g.addNode I idx op = some g' →
      g'.live = upd g.live idx true := by
    intro g g' idx op ha
    unfold Hugr.addNode at ha
    split at ha
    · cases ha
    · cases ha; rfl
  have hwith : ∀ {g g' : Hugr Op Meta} {r : Option Hier}, g.withHier r = some g' →
      g'.live = g.live := by
    intro g g' r hw
    obtain ⟨k, _, rfl⟩ := withHier_some hw
    rfl
  have hrem : ∀ {g g' : Hugr Op Meta} {m : Nat}, g.removeNode I m = some g' →
      g'.live n = true → g.live n = true := by
    intro g g' m hr hl
    unfold Hugr.removeNode at hr
    split at hr
    · cases hr
      simp only [upd] at hl
      split at hl
      · cases hl
      · exact hl
    · cases hr
  have hq : ∀ (fuel : Nat) (g g' : Hugr Op Meta) (Q : List Nat),
      g.removeQueue I fuel Q = some g' → g'.live n = true → g.live n = true := by
    intro fuel
    induction fuel with
    | zero =>
      intro g g' Q hr
      cases Q with
      | nil => simp only [Hugr.removeQueue, Option.some.injEq] at hr; rw [hr]; exact id
      | cons q Q => simp [Hugr.removeQueue] at hr
    | succ fuel ih =>
      intro g g' Q hr
      cases Q with
      | nil => simp only [Hugr.removeQueue, Option.some.injEq] at hr; rw [hr]; exact id
      | cons q Q =>
        simp only [Hugr.removeQueue] at hr
        cases h1 : g.removeNode I q with
        | none => rw [h1] at hr; cases hr
        | some g1 => rw [h1] at hr; exact fun hl => hrem h1 (ih g1 g' _ hr hl)
  have hports : ∀ {g g' : Hugr Op Meta} {m : Nat} {dir : Dir} {a : Int} {r : Nat × Nat},
      g.addPorts m dir a = some (g', r) → g'.live = g.live := by
    intro g g' m dir a r ha
    unfold Hugr.addPorts at ha
    split at ha
    · cases dir <;> cases ha <;> rfl
    · cases ha
  have hnew : ∀ {g : Hugr Op Meta} {idx : Nat}, (upd g.live idx true) n = true →
      g.live n = true ∨ some idx = some n := by
    intro g idx hl
    simp only [upd] at hl
    split at hl
    · rename_i e; exact Or.inr (by rw [e])
    · exact Or.inl hl
  cases c with
  | addNodeWithParent idx p op =>
    simp only [step, Hugr.addNodeWithParent] at hs
    cases h1 : h.addNode I idx op with
    | none => rw [h1] at hs; cases hs
    | some g =>
      rw [h1] at hs
      rw [hwith hs, hadd h1] at hn
      exact hnew hn
  | addNodeBefore idx p op =>
    simp only [step, Hugr.addNodeBefore] at hs
    cases h1 : h.addNode I idx op with
    | none => rw [h1] at hs; cases hs
    | some g =>
      rw [h1] at hs
      rw [hwith hs, hadd h1] at hn
      exact hnew hn
  | addNodeAfter idx p op =>
    simp only [step, Hugr.addNodeAfter] at hs
    cases h1 : h.addNode I idx op with
    | none => rw [h1] at hs; cases hs
    | some g =>
      rw [h1] at hs
      rw [hwith hs, hadd h1] at hn
      exact hnew hn
  | setEntrypoint n =>
    left
    simp only [step, Hugr.setEntrypoint] at hs
    split at hs <;> cases hs; exact hn
  | setParent n p =>
    left
    simp only [step, Hugr.setParent] at hs
    split at hs
    · rw [hwith hs] at hn; exact hn
    · cases hs
  | moveBeforeSibling n p =>
    left
    simp only [step, Hugr.moveBeforeSibling] at hs
    split at hs
    · rw [hwith hs] at hn; exact hn
    · cases hs
  | moveAfterSibling n p =>
    left
    simp only [step, Hugr.moveAfterSibling] at hs
    split at hs
    · rw [hwith hs] at hn; exact hn
    · cases hs
  | removeNode n => exact Or.inl (hrem hs hn)
  | removeSubtree n =>
    left
    simp only [step, Hugr.removeSubtree] at hs
    split at hs
    · exact hq _ _ _ _ hs hn
    · cases hs
  | connect l =>
    left
    simp only [step, Hugr.connect] at hs
    split at hs <;> cases hs; exact hn
  | disconnect n dir port =>
    left
    simp only [step, Hugr.disconnect] at hs
    split at hs <;> cases hs; exact hn
  | setNumPorts n i o =>
    left
    simp only [step, Hugr.setNumPorts] at hs
    split at hs <;> cases hs; exact hn
  | addPorts n dir a =>
    left
    simp only [step] at hs
    cases h1 : h.addPorts n dir a with
    | none => rw [h1] at hs; cases hs
    | some q => obtain ⟨g, r⟩ := q; rw [h1] at hs; cases hs; rw [hports h1] at hn; exact hn
  | insertPorts n dir i a =>
    left
    simp only [step, Hugr.insertPorts] at hs
    cases h1 : h.addPorts n dir a with
    | none => rw [h1] at hs; cases hs
    | some q =>
      obtain ⟨g, r⟩ := q; rw [h1] at hs; cases hs
      rw [(shiftFold_same n dir a _ g).1.live, hports h1] at hn; exact hn
  | replaceOp n op =>
    left
    simp only [step, Hugr.replaceOp] at hs
    split at hs <;> cases hs; exact hn
  | setMetadata n k v =>
    left
    simp only [step, Hugr.setMetadata] at hs
    split at hs <;> cases hs; exact hn
  | removeMetadata n k =>
    left
    simp only [step, Hugr.removeMetadata] at hs
    split at hs <;> cases hs; exact hn

/-- What one call records about a key of a node. -/
def record (n : Nat) (k : String) (acc : Option Meta) (c : Cmd Op Meta) : Option Meta :=
  match c with
  | .setMetadata n' k' v => if n' = n ∧ k' = k then some v else acc
  | .removeMetadata n' k' => if n' = n ∧ k' = k then none else acc
  | .addNodeWithParent idx _ _ => if idx = n then none else acc
  | .addNodeBefore idx _ _ => if idx = n then none else acc
  | .addNodeAfter idx _ _ => if idx = n then none else acc
  | _ => acc

/-- What a history says about a key of a node: the value set last since the node was created. -/
def recorded (cmds : List (Cmd Op Meta)) (n : Nat) (k : String) : Option Meta :=
  cmds.foldl (record n k) none

theorem step_metaAt (I : OpInfo Op) {h h' : Hugr Op Meta} (c : Cmd Op Meta)
    (hs : step I h c = some h') (n : Nat) (k : String)
    (hc : c.created = some n → h.metaAt n k = none) :
    h'.metaAt n k = record n k (h.metaAt n k) c := by
  have hm := step_metadata I c hs
  unfold Hugr.metaAt
  rw [hm]
  cases c with
  | setMetadata m j v =>
    simp only [record]
    by_cases e : m = n
    · subst e
      simp only [upd_same, Option.getD_some, lookup_metaInsert, true_and]
      by_cases e2 : k = j
      · subst e2; simp
      · rw [if_neg e2, if_neg (Ne.symm e2)]
    · rw [upd_ne _ _ (Ne.symm e), if_neg (fun h => e h.1)]
  | removeMetadata m j =>
    simp only [record]
    by_cases e : m = n
    · subst e
      simp only [upd_same, Option.getD_some, lookup_metaRemove, true_and]
      by_cases e2 : k = j
      · subst e2; simp
      · rw [if_neg e2, if_neg (Ne.symm e2)]
    · rw [upd_ne _ _ (Ne.symm e), if_neg (fun h => e h.1)]
  | addNodeWithParent idx p op =>
    simp only [record]
    split
    · rename_i e; exact hc (by rw [e]; rfl)
    · rfl
  | addNodeBefore idx p op =>
    simp only [record]
    split
    · rename_i e; exact hc (by rw [e]; rfl)
    · rfl
  | addNodeAfter idx p op =>
    simp only [record]
    split
    · rename_i e; exact hc (by rw [e]; rfl)
    · rfl
  | _ => rfl

/-- A value can only be recorded for a live node. -/
theorem record_dead (I : OpInfo Op) {h h' : Hugr Op Meta} (c : Cmd Op Meta)
    (hs : step I h c = some h') {n : Nat} (hn : h.live n = false) (k : String) :
    h'.metaAt n k = h.metaAt n k := by
  have hm := step_metadata I c hs
  unfold Hugr.metaAt
  rw [hm]
  cases c with
  | setMetadata m j v =>
    have : m ≠ n := by
      rintro rfl
      simp only [step, Hugr.setMetadata, hn] at hs; cases hs
    simp only [upd_ne _ _ (Ne.symm this)]
  | removeMetadata m j =>
    have : m ≠ n := by
      rintro rfl
      simp only [step, Hugr.removeMetadata, hn] at hs; cases hs
    simp only [upd_ne _ _ (Ne.symm this)]
  | _ => rfl

theorem run_metadata (I : OpInfo Op) (cmds : List (Cmd Op Meta)) (h h' : Hugr Op Meta)
    (hfresh : ∀ n ∈ cmds.filterMap Cmd.created, h.live n = false ∧ ∀ k, h.metaAt n k = none)
    (hnd : (cmds.filterMap Cmd.created).Nodup) (hr : run I h cmds = some h') (n : Nat) (k : String) :
    h'.metaAt n k = cmds.foldl (record n k) (h.metaAt n k) := by
  induction cmds generalizing h with
  | nil => cases hr; rfl
  | cons c cs ih =>
    simp only [run] at hr
    cases hs : step I h c with
    | none => rw [hs] at hr; cases hr
    | some h1 =>
      rw [hs] at hr
      have hsub : ∀ m ∈ cs.filterMap Cmd.created, m ∈ (c :: cs).filterMap Cmd.created := by
        intro m hm
        rw [List.filterMap_cons]
        cases c.created with
        | none => exact hm
        | some x => exact List.mem_cons_of_mem _ hm
      have hnot : ∀ m ∈ cs.filterMap Cmd.created, c.created ≠ some m := by
        intro m hm hc
        rw [List.filterMap_cons, hc] at hnd
        exact (List.nodup_cons.1 hnd).1 hm
      have hnd' : (cs.filterMap Cmd.created).Nodup := by
        rw [List.filterMap_cons] at hnd
        cases hc : c.created with
        | none => rw [hc] at hnd; exact hnd
        | some x => rw [hc] at hnd; exact (List.nodup_cons.1 hnd).2
      rw [List.foldl_cons, ← step_metaAt I c hs n k]
      · refine ih h1 ?_ hnd' hr
        intro m hm
        obtain ⟨h2, h3⟩ := hfresh m (hsub m hm)
        refine ⟨?_, fun k => by rw [record_dead I c hs h2]; exact h3 k⟩
        cases hl : h1.live m with
        | false => rfl
        | true =>
          rcases step_live I c hs hl with h4 | h4
          · rw [h2] at h4; cases h4
          · exact absurd h4 (hnot m hm)
      · intro hc
        exact (hfresh n (by rw [List.filterMap_cons, hc]; simp)).2 k

/-- **C26** (partial) In a history that never creates two nodes with the same index, the metadata of
a live node is what was last set on it since it was created.

Missing from the full statement: histories that reuse an index (`C26_reuse_refuted`). -/
theorem C26_metadata_partial (I : OpInfo Op) (m : Op) (cmds : List (Cmd Op Meta)) (h : Hugr Op Meta)
    (hr : run I (Hugr.new I m) cmds = some h) (hnd : (0 :: cmds.filterMap Cmd.created).Nodup)
    (n : Nat) (hn : h.live n = true) (k : String) :
    h.getMetadata n k = some (recorded cmds n k) := by
  have := run_metadata I cmds (Hugr.new I m) h ?_ (List.nodup_cons.1 hnd).2 hr n k
  · unfold Hugr.getMetadata
    rw [if_pos hn]
    exact congrArg some this
  · intro x hx
    refine ⟨?_, fun _ => rfl⟩
    have : x ≠ 0 := fun e => (List.nodup_cons.1 hnd).1 (e ▸ hx)
    simpa [Hugr.new] using this

/-- Values are set, overwritten and removed on two nodes. -/
example : (run demoInfo (Hugr.new demoInfo 0)
    [.addNodeWithParent 1 0 2, .setMetadata 1 "a" "x", .addNodeWithParent 2 0 2, .setMetadata 1 "a" "y",
     .setMetadata 2 "a" "z", .setMetadata 2 "b" "w", .removeMetadata 2 "a"]).map
    (fun h => (h.getMetadata 1 "a", h.getMetadata 2 "a", h.getMetadata 2 "b")) =
    some (some (some "y"), some none, some (some "w")) := by decide +kernel

/-- **C26** Finding: a node created at the index of a removed node has the metadata of the removed
node. -/
theorem C26_reuse_refuted :
    ∃ (cmds : List (Cmd Nat String)) (h : Hugr Nat String),
      run demoInfo (Hugr.new demoInfo 0) cmds = some h ∧ AllDocumented demoInfo (Hugr.new demoInfo 0) cmds ∧
      h.live 1 = true ∧ recorded cmds 1 "name" = none ∧
      h.getMetadata 1 "name" = some (some "old") :=
  ⟨[.addNodeWithParent 1 0 2, .setMetadata 1 "name" "old", .removeNode 1, .addNodeWithParent 1 0 2],
    _, rfl, by decide +kernel, by decide +kernel, by decide +kernel, by decide +kernel⟩

end Verif.Graph
