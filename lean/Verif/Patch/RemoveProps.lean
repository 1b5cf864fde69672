import Verif.Patch.RemoveLemmas
import Verif.Patch.PeelProps

/-!
# C73: removing constants that are not used
-/
namespace Verif.Patch

open Verif.Graph Verif.Ops Verif.Passes Verif.Validate Verif.Dataflow

variable {Meta : Type} {C : Validate.Context} {h : Hugr Ops.Op Meta}

/-- **C73** `RemoveLoadConstant` of a node that loads a constant and whose value nobody uses takes just that
node away, with its edges, and tells where the constant is. What is left is valid, and functions return
what they did.

Missing: the node must have no incoming order edges; see `C73_remove_load_panics`. -/
theorem C73_remove_load_partial (ht : IsTree h) (hv : Valid C h) {n : Nat} (hn : h.live n = true) {t : Types.Ty}
    (hop : h.ops n = .loadConstant t) (hu : ∀ l ∈ h.links, l.src = n → l.srcPort ≠ 0)
    (ho : ∀ l ∈ h.links, l.dst = n → l.dstPort = 0) :
    ∃ g c, removeLoadConstant h n = .ok g c ∧ (∃ t', h.ops c = .const t' ∧ ∃ l ∈ h.links, l.src = c ∧ l.dst = n) ∧
      WithoutNodes h (fun m => m = n) g ∧ IsTree g ∧ Valid C g ∧
      ∀ {W E : Type} (S : Sem W E) f args outs, Returns g S f args outs ↔ Returns h S f args outs := by
  have hen : n ≠ h.entrypoint := by
    rintro rfl
    have := hv.entrypoint
    rw [hop] at this; cases this
  have hrt : n ≠ h.moduleRoot := by
    rintro rfl
    obtain ⟨l, hl⟩ := List.length_eq_one_iff.1 (hv.inDegree _ 0 (.const t) hn (by rw [hop]; rfl))
    have hm : l ∈ linksTo h h.moduleRoot 0 := by rw [hl]; simp
    unfold linksTo at hm
    rw [List.mem_filter, Bool.and_eq_true, decide_eq_true_iff, decide_eq_true_iff] at hm
    obtain ⟨_, _, _, p, _, hd | ⟨q, a, hd, _⟩⟩ := hv.kinds l hm.1 <;> rw [hm.2.1, ht.root_top] at hd <;> cases hd
  obtain ⟨P, hp⟩ := ht.has_parent n hn hrt
  obtain ⟨g, h1, h2, h3⟩ := removeNode_spec ht hn hen
  have z : Unused C h g n P := by
    refine ⟨ht, hv, hp, .inr ⟨t, hop⟩, ?_, h2, h3⟩
    intro l hl hs
    obtain ⟨kind, k1, _⟩ := hv.kinds l hl
    have h0 := hu l hl hs
    rw [k1]
    unfold srcKind at k1
    rw [hs, hop] at k1
    have k1' : ([.value t, .stateOrder] : List Kind)[l.srcPort]? = some kind := k1
    rcases hq : l.srcPort with _ | _ | q
    · exact absurd hq h0
    · rw [hq] at k1'; cases k1'; rfl
    · rw [hq] at k1'; simp at k1'
  obtain ⟨l, hl⟩ := List.length_eq_one_iff.1 (hv.inDegree n 0 (.const t) hn (by rw [hop]; rfl))
  have hm : l ∈ linksTo h n 0 := by rw [hl]; simp
  unfold linksTo at hm
  rw [List.mem_filter, Bool.and_eq_true, decide_eq_true_iff, decide_eq_true_iff] at hm
  have hin : inputNeighbours h n = [l.src] := by
    unfold inputNeighbours
    have : h.links.filter (fun l => l.dst = n) = linksTo h n 0 := by
      unfold linksTo
      refine List.filter_congr fun x hx => ?_
      by_cases e : x.dst = n
      · simp [e, ho x hx e]
      · simp [e]
    rw [this, hl]; rfl
  have hout : h.linkedInputs n 0 = [] := by
    rw [List.eq_nil_iff_forall_not_mem]
    intro x hx
    exact hu _ (mem_linkedInputs.1 hx) rfl rfl
  have hc : ∃ t', h.ops l.src = .const t' := by
    obtain ⟨kind, k1, k2, _⟩ := hv.kinds l hm.1
    rw [hm.2.1, hm.2.2, hop] at k2
    cases k2
    unfold srcKind at k1
    have := List.mem_of_getElem? k1
    cases ho : h.ops l.src <;> rw [ho] at this <;> simp [Op.ports] at this
    exact ⟨_, rfl⟩
  obtain ⟨t', hc⟩ := hc
  refine ⟨g, l.src, ?_, ⟨t', hc, l, hm.1, rfl, hm.2.1⟩, removed_without ht hv h2, z.tree_g, z.valid_g, fun S f args outs => z.returns S⟩
  unfold removeLoadConstant
  rw [if_neg (by simp [hn, hop, isLoadConstant]), hout]
  simp only
  rw [hin]
  simp only
  rw [h1]

/-- **C73** `RemoveConst` of a constant that nobody loads takes just that node away and tells its parent.
What is left is valid, and functions return what they did. -/
theorem C73_remove_const (ht : IsTree h) (hv : Valid C h) {n : Nat} (hn : h.live n = true) (hr : n ≠ h.moduleRoot)
    {t : Types.Ty} (hop : h.ops n = .const t) (hu : ∀ l ∈ h.links, l.src ≠ n) :
    ∃ g p, removeConst h n = .ok g p ∧ h.hier.parent n = some p ∧
      WithoutNodes h (fun m => m = n) g ∧ IsTree g ∧ Valid C g ∧
      ∀ {W E : Type} (S : Sem W E) f args outs, Returns g S f args outs ↔ Returns h S f args outs := by
  have hen : n ≠ h.entrypoint := by
    rintro rfl
    have := hv.entrypoint
    rw [hop] at this; cases this
  obtain ⟨P, hp⟩ := ht.has_parent n hn hr
  obtain ⟨g, h1, h2, h3⟩ := removeNode_spec ht hn hen
  have z : Unused C h g n P := ⟨ht, hv, hp, .inl ⟨t, hop⟩, fun l hl hs => absurd hs (hu l hl), h2, h3⟩
  have hout : outputNeighbours h n = [] := by
    rw [List.eq_nil_iff_forall_not_mem]
    intro x hx
    obtain ⟨l, hl, e, _⟩ := mem_outputNeighbours.1 hx
    exact hu l hl e
  refine ⟨g, P, ?_, hp, removed_without ht hv h2, z.tree_g, z.valid_g, fun S f args outs => z.returns S⟩
  unfold removeConst
  rw [if_neg (by simp [hn, hop, isConst]), hout]
  simp only
  rw [hp]
  simp only
  rw [h1]

/-- **C73** The patches are refused exactly where there is nothing to remove: the node is none or not of
that kind; or its value is used, where the order edges out of a constant that is loaded do not count. -/
theorem C73_remove_refused (n : Nat) :
    (removeLoadConstant h n = .invalidNode ↔ ¬ (h.live n = true ∧ ∃ t, h.ops n = .loadConstant t)) ∧
    (removeLoadConstant h n = .valueUsed ↔ (h.live n = true ∧ ∃ t, h.ops n = .loadConstant t) ∧
      ∃ l ∈ h.links, l.src = n ∧ l.srcPort = 0) ∧
    (removeConst h n = .invalidNode ↔ ¬ (h.live n = true ∧ ∃ t, h.ops n = .const t)) ∧
    (removeConst h n = .valueUsed ↔ (h.live n = true ∧ ∃ t, h.ops n = .const t) ∧ ∃ l ∈ h.links, l.src = n) := by
  have e1 : (!h.live n || !isLoadConstant (h.ops n)) = true ↔ ¬ (h.live n = true ∧ ∃ t, h.ops n = .loadConstant t) := by
    cases hl : h.live n <;> cases ho : h.ops n <;> simp [isLoadConstant]
  have e2 : (!h.live n || !isConst (h.ops n)) = true ↔ ¬ (h.live n = true ∧ ∃ t, h.ops n = .const t) := by
    cases hl : h.live n <;> cases ho : h.ops n <;> simp [isConst]
  have u1 : (∃ l ∈ h.links, l.src = n ∧ l.srcPort = 0) ↔ h.linkedInputs n 0 ≠ [] := by
    constructor
    · rintro ⟨l, hl, rfl, e⟩
      have : (l.dst, l.dstPort) ∈ h.linkedInputs l.src 0 := mem_linkedInputs.2 (by rw [← e]; exact hl)
      exact List.ne_nil_of_mem this
    · intro hx
      obtain ⟨x, hx⟩ := List.exists_mem_of_ne_nil _ hx
      exact ⟨_, mem_linkedInputs.1 hx, rfl, rfl⟩
  have u2 : (∃ l ∈ h.links, l.src = n) ↔ outputNeighbours h n ≠ [] := by
    constructor
    · rintro ⟨l, hl, e⟩; exact List.ne_nil_of_mem (mem_outputNeighbours.2 ⟨l, hl, e, rfl⟩)
    · intro hx
      obtain ⟨x, hx⟩ := List.exists_mem_of_ne_nil _ hx
      obtain ⟨l, hl, e, _⟩ := mem_outputNeighbours.1 hx
      exact ⟨l, hl, e⟩
  rw [u1, u2]
  unfold removeLoadConstant removeConst
  refine ⟨?_, ?_, ?_, ?_⟩
  · by_cases hc : (!h.live n || !isLoadConstant (h.ops n)) = true
    · rw [if_pos hc]; simpa using e1.1 hc
    · rw [if_neg hc]
      refine ⟨fun he => ?_, fun he => absurd (e1.2 he) hc⟩
      exfalso
      split at he
      · cases he
      · split at he
        · split at he <;> cases he
        · cases he
  · by_cases hc : (!h.live n || !isLoadConstant (h.ops n)) = true
    · rw [if_pos hc]
      exact ⟨fun he => (nomatch he), fun he => absurd he.1 (e1.1 hc)⟩
    · rw [if_neg hc]
      have hp := not_not.1 (fun he => hc (e1.2 he))
      cases hl : h.linkedInputs n 0 with
      | nil =>
        refine ⟨fun he => ?_, fun he => absurd rfl he.2⟩
        exfalso
        simp only at he
        split at he
        · split at he <;> cases he
        · cases he
      | cons a b => simpa using hp
  · by_cases hc : (!h.live n || !isConst (h.ops n)) = true
    · rw [if_pos hc]; simpa using e2.1 hc
    · rw [if_neg hc]
      refine ⟨fun he => ?_, fun he => absurd (e2.2 he) hc⟩
      exfalso
      split at he
      · cases he
      · split at he
        · cases he
        · split at he <;> cases he
  · by_cases hc : (!h.live n || !isConst (h.ops n)) = true
    · rw [if_pos hc]
      exact ⟨fun he => (nomatch he), fun he => absurd he.1 (e2.1 hc)⟩
    · rw [if_neg hc]
      have hp := not_not.1 (fun he => hc (e2.2 he))
      cases hl : outputNeighbours h n with
      | nil =>
        refine ⟨fun he => ?_, fun he => absurd rfl he.2⟩
        exfalso
        simp only at he
        split at he
        · cases he
        · split at he <;> cases he
      | cons a b => simpa using hp

/-! ## Examples -/

/-- `main` (1) loads true (4) twice: 5, which it returns, and 6, which is only ordered before the output.
If `order` then 6 also comes after the input. Nobody loads 7. -/
def spareHistory (order : Bool) : List (Cmd Ops.Op String) :=
  [ .addNodeWithParent 1 0 (.funcDefn "main" ⟨[], ⟨[], [bool]⟩⟩),
    .addNodeWithParent 2 1 (.input []), .addNodeWithParent 3 1 (.output [bool]),
    .addNodeWithParent 4 0 (.const bool),
    .addNodeWithParent 5 1 (.loadConstant bool), .addNodeWithParent 6 1 (.loadConstant bool),
    .addNodeWithParent 7 1 (.const bool),
    .connect ⟨4, 0, 5, 0⟩, .connect ⟨4, 0, 6, 0⟩, .connect ⟨5, 0, 3, 0⟩, .connect ⟨6, 1, 3, 1⟩ ] ++
  if order then [.connect ⟨2, 0, 6, 1⟩] else []

def spareHugr (order : Bool) : Hugr Ops.Op String := built (spareHistory order)

theorem spare_valid (order : Bool) : IsTree (spareHugr order) ∧ Valid anaContext (spareHugr order) := by
  obtain ⟨h1, h2⟩ := built_ok (spareHistory order) (by cases order <;> decide +kernel) (by cases order <;> decide +kernel)
  exact ⟨h1, (C47_validate_iff_partial _ _ h1 h2).1 (by cases order <;> decide +kernel)⟩

/-- The node of the result, and the children of a node and the links of its Hugr. -/
def Removal.node? : Removal Meta → Option Nat
  | .ok _ n => some n
  | _ => none
def Removal.view? (p : Nat) : Removal Meta → Option (List Nat × List Link)
  | .ok g _ => some (g.children p, g.links)
  | _ => none

/-- The hypotheses are met. -/
example : ∃ g, removeLoadConstant (spareHugr false) 6 = .ok g 4 ∧ Valid anaContext g ∧ g.children 1 = [2, 3, 5, 7] ∧
    g.links = [⟨4, 0, 5, 0⟩, ⟨5, 0, 3, 0⟩] := by
  obtain ⟨g, c, h1, _, h2, _, h3, _⟩ := C73_remove_load_partial (spare_valid false).1 (spare_valid false).2 (n := 6)
    (by decide +kernel) rfl (by decide +kernel) (by decide +kernel)
  have hc : c = 4 := by
    have : (removeLoadConstant (spareHugr false) 6).node? = some 4 := by decide +kernel
    rw [h1] at this; exact Option.some.inj this
  subst hc
  have hg : (removeLoadConstant (spareHugr false) 6).view? 1 = some ([2, 3, 5, 7], [⟨4, 0, 5, 0⟩, ⟨5, 0, 3, 0⟩]) := by
    decide +kernel
  rw [h1] at hg
  have hg := Option.some.inj hg
  exact ⟨g, h1, h3, congrArg Prod.fst hg, congrArg Prod.snd hg⟩

example : ∃ g, removeConst (spareHugr false) 7 = .ok g 1 ∧ Valid anaContext g := by
  obtain ⟨g, p, h1, h2, _, _, h3, _⟩ := C73_remove_const (spare_valid false).1 (spare_valid false).2 (n := 7)
    (by decide +kernel) (by decide +kernel) rfl (by decide +kernel)
  have hp : (spareHugr false).hier.parent 7 = some 1 := by decide +kernel
  rw [hp] at h2; cases h2
  exact ⟨g, h1, h3⟩

/-- The other outcomes: a node that is used, one of another kind, and none. -/
example : removeLoadConstant (spareHugr false) 5 = .valueUsed ∧ removeLoadConstant (spareHugr false) 4 = .invalidNode ∧
    removeLoadConstant (spareHugr false) 9 = .invalidNode ∧ removeConst (spareHugr false) 4 = .valueUsed ∧
    removeConst (spareHugr false) 5 = .invalidNode := ⟨rfl, rfl, rfl, rfl, rfl⟩

/-- **C73** `RemoveLoadConstant` panics on a valid Hugr if an order edge leads to the node, since it asks for
the only source of an edge to the node, consts.rs:66-70. -/
theorem C73_remove_load_panics : Valid anaContext (spareHugr true) ∧ removeLoadConstant (spareHugr true) 6 = .panic :=
  ⟨(spare_valid true).2, rfl⟩

end Verif.Patch
