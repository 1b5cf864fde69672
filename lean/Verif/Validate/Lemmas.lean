import Verif.Validate.Spec
import Verif.Ops.TagProps
import Verif.Graph.TreeProps

/-!
# Lemmas on validation
-/
namespace Verif.Validate

open Verif.Graph Verif.Ops Verif.Types Verif.Passes

variable {Meta : Type}

@[simp] theorem andThen_ok (a b : Verdict) : a.andThen b = .ok ↔ a = .ok ∧ b = .ok := by
  cases a <;> simp [Verdict.andThen]

@[simp] theorem check_ok (b : Bool) (e : VError) : check b e = .ok ↔ b = true := by
  unfold check; cases b <;> simp

@[simp] theorem forAll_ok {α : Type} (f : α → Verdict) (l : List α) :
    forAll f l = .ok ↔ ∀ a ∈ l, f a = .ok := by
  induction l with
  | nil => simp [forAll]
  | cons a l ih => simp [forAll, ih]

theorem getParent_eq {h : Hugr Ops.Op Meta} (ht : IsTree h) (n : Nat) :
    h.getParent n = h.hier.parent n := by
  unfold Hugr.getParent
  by_cases hr : n = h.moduleRoot
  · subst hr; simp [ht.root_top]
  · by_cases hl : h.live n = true
    · simp [hr, hl]
    · cases hp : h.hier.parent n with
      | none => simp
      | some p => exact absurd (ht.parent_live n p hp).1 hl

theorem mem_children {h : Hugr Ops.Op Meta} (ht : IsTree h) (p n : Nat) :
    n ∈ h.children p ↔ h.hier.parent n = some p := ht.child_iff p n

/-! ## Tags -/

theorem module_tag (op : Ops.Op) : OpTag.isSuperset .moduleOp op.opTag = true ↔
    MayContain .module op := by
  cases op <;> simp only [Op.opTag, MayContain] <;> decide +kernel

theorem case_tag (op : Ops.Op) : OpTag.isSuperset .case op.opTag = true ↔ ∃ s, op = .case s := by
  cases op <;> simp only [Op.opTag] <;> simp <;> decide +kernel

theorem cfgChild_tag (op : Ops.Op) (sig : Signature) :
    OpTag.isSuperset .controlFlowChild op.opTag = true ↔ MayContain (.cfg sig) op := by
  cases op <;> simp only [Op.opTag, MayContain] <;> decide +kernel

theorem dfChild_tag (op : Ops.Op) : OpTag.isSuperset .dataflowChild op.opTag = true ↔
    DataflowChild op := by
  cases op <;> simp only [Op.opTag, DataflowChild] <;> decide +kernel

theorem none_tag (op : Ops.Op) : OpTag.isSuperset .none op.opTag = false := by
  cases op <;> simp only [Op.opTag] <;> decide +kernel

theorem input_tag (op : Ops.Op) : OpTag.isSuperset .input op.opTag = true ↔ ∃ ts, op = .input ts := by
  cases op <;> simp only [Op.opTag] <;> simp <;> decide +kernel

theorem output_tag (op : Ops.Op) :
    OpTag.isSuperset .output op.opTag = true ↔ ∃ ts, op = .output ts := by
  cases op <;> simp only [Op.opTag] <;> simp <;> decide +kernel

theorem block_tag (op : Ops.Op) :
    OpTag.isSuperset .dataflowBlock op.opTag = true ↔ ∃ i o r, op = .dataflowBlock i o r := by
  cases op <;> simp only [Op.opTag] <;> simp <;> decide +kernel

theorem exit_tag (op : Ops.Op) :
    OpTag.isSuperset .basicBlockExit op.opTag = true ↔ ∃ o, op = .exitBlock o := by
  cases op <;> simp only [Op.opTag] <;> simp <;> decide +kernel

theorem any_tag (op : Ops.Op) : OpTag.isSuperset .any op.opTag = true := by
  cases op <;> simp only [Op.opTag] <;> decide +kernel

theorem contains_iff (p c : Ops.Op) :
    (flags p).allowedChildren.isSuperset c.opTag = true ↔ MayContain p c := by
  cases p <;> simp only [flags]
  case module => exact module_tag c
  case conditional =>
    rw [case_tag]
    cases c <;> simp [MayContain]
  case cfg sig => exact cfgChild_tag c sig
  all_goals first
    | (rw [dfChild_tag]; simp [MayContain, body])
    | (rw [none_tag]; simp [MayContain, body])

theorem container_iff (op : Ops.Op) :
    (flags op).allowedChildren.isEmpty = false ↔ Container op := by
  cases op <;> simp [flags, Container, body, OpTag.isEmpty] <;> decide

theorem io_tag (op : Ops.Op) : (op.opTag ≠ .input ∧ op.opTag ≠ .output) ↔ ¬ IsIO op := by
  cases op <;> simp [Op.opTag, IsIO]

theorem exit_tag_eq (op : Ops.Op) : op.opTag ≠ .basicBlockExit ↔ ∀ o, op ≠ .exitBlock o := by
  cases op <;> simp [Op.opTag]

theorem cfg_tag_eq (op : Ops.Op) : op.opTag = .cfg ↔ ∃ s, op = .cfg s := by
  cases op <;> simp [Op.opTag]

theorem inner_eq_body (op : Ops.Op) :
    op.innerSignature = (body op).map fun b => ⟨b.1, b.2⟩ := by
  cases op <;> rfl

/-! ## Regions -/

theorem mem_regionSucc (h : Hugr Ops.Op Meta) (p a b : Nat) :
    b ∈ regionSucc h p a ↔ RegionEdge h p a b := by
  unfold regionSucc RegionEdge
  simp only [List.mem_map, List.mem_filter, Bool.and_eq_true, decide_eq_true_eq]
  constructor
  · rintro ⟨l, ⟨h1, h2, h3, h4⟩, rfl⟩; exact ⟨h3, h4, l, h1, h2, rfl⟩
  · rintro ⟨h1, h2, l, h3, h4, h5⟩; exact ⟨l, ⟨h3, h4, h1, h5 ▸ h2⟩, h5⟩

theorem mem_regionPred (h : Hugr Ops.Op Meta) (p a b : Nat) :
    a ∈ regionPred h p b ↔ RegionEdge h p a b := by
  unfold regionPred RegionEdge
  simp only [List.mem_map, List.mem_filter, Bool.and_eq_true, decide_eq_true_eq]
  constructor
  · rintro ⟨l, ⟨h1, h2, h3, h4⟩, rfl⟩; exact ⟨h4, h3, l, h1, rfl, h2⟩
  · rintro ⟨h1, h2, l, h3, h4, h5⟩; exact ⟨l, ⟨h3, h5, h2, h4 ▸ h1⟩, h4⟩

theorem validateDag_ok {h : Hugr Ops.Op Meta} (ht : IsTree h) (n : Nat) :
    validateDag h n = .ok ↔ ∀ m, ¬ Relation.TransGen (RegionEdge h n) m m := by
  have hrel : (fun a b => b ∈ regionSucc h n a) = RegionEdge h n := by
    funext a b; exact propext (mem_regionSucc h n a b)
  unfold validateDag
  rw [check_ok, decide_eq_true_eq, topo_length (h.children n) (ht.child_once n), hrel]
  · intro a b; rw [mem_regionSucc, mem_regionPred]
  · intro a b hab
    rw [mem_regionSucc] at hab
    exact ⟨hab.1, hab.2.1⟩

theorem chain_avoid {R : Nat → Nat → Prop} {b a : Nat} :
    ∀ (path : List Nat) (x : Nat), (x :: path).IsChain R → (x :: path).getLast? = some a →
      b ∉ x :: path → Relation.ReflTransGen (fun x y => R x y ∧ y ≠ b) x a := by
  intro path
  induction path with
  | nil => intro x _ hl _; simp at hl; subst hl; exact .refl
  | cons y path ih =>
    intro x hc hl hb
    rw [List.isChain_cons_cons] at hc
    refine .head ⟨hc.1, fun he => hb (by simp [he])⟩ (ih y hc.2 ?_ fun hm => hb (List.mem_cons_of_mem _ hm))
    rw [List.getLast?_cons_cons] at hl
    exact hl

theorem avoid_chain {R : Nat → Nat → Prop} {b a x : Nat} (hx : x ≠ b)
    (hr : Relation.ReflTransGen (fun x y => R x y ∧ y ≠ b) x a) :
    ∃ path : List Nat, (x :: path).IsChain R ∧ (x :: path).getLast? = some a ∧ b ∉ x :: path := by
  induction hr using Relation.ReflTransGen.head_induction_on with
  | refl => exact ⟨[], by simp, by simp, by simpa using Ne.symm hx⟩
  | head hstep _ ih =>
    obtain ⟨path, h1, h2, h3⟩ := ih hstep.2
    refine ⟨_ :: path, List.isChain_cons_cons.2 ⟨hstep.1, h1⟩, ?_, ?_⟩
    · rw [List.getLast?_cons_cons]; exact h2
    · intro hm
      rcases List.mem_cons.1 hm with rfl | hm
      · exact hx rfl
      · exact h3 hm

theorem dominates_iff (nodes : List Nat) (hnodes : nodes.Nodup) (succ : Nat → List Nat)
    (entry b a : Nat) (hentry : entry ∈ nodes) (hin : ∀ x y, y ∈ succ x → y ∈ nodes) :
    dominates nodes succ entry b a = true ↔ Dominates (fun x y => y ∈ succ x) entry b a := by
  unfold dominates Dominates
  simp only []
  rw [Bool.and_eq_true, decide_eq_true_eq, Bool.not_eq_true', decide_eq_false_iff_not,
    dfs_mem succ nodes [entry] hnodes (by simpa using hentry) (fun n _ m hm => hin n m hm),
    dfs_mem _ nodes _ hnodes (by split <;> simp [hentry])
      (fun n _ m hm => hin n m (List.mem_filter.1 hm).1)]
  have h1 : (∃ s ∈ [entry], Relation.ReflTransGen (fun x y => y ∈ succ x) s a) ↔
      Relation.ReflTransGen (fun x y => y ∈ succ x) entry a := by simp
  rw [h1]
  apply and_congr_right
  intro _
  have hrel : (fun x y => y ∈ (succ x).filter fun m => decide (m ≠ b)) =
      fun x y => y ∈ succ x ∧ y ≠ b := by
    funext x y
    rw [List.mem_filter, decide_eq_true_eq]
  rw [hrel]
  constructor
  · intro hn path hh hl hc
    by_contra hb
    apply hn
    cases path with
    | nil => simp at hh
    | cons x path =>
      simp only [List.head?_cons, Option.some.injEq] at hh
      subst hh
      have hx : x ≠ b := fun he => hb (by simp [he])
      refine ⟨x, by rw [if_neg hx]; simp, ?_⟩
      exact chain_avoid path x hc hl hb
  · rintro hp ⟨s, hs, hr⟩
    by_cases he : entry = b
    · rw [if_pos he] at hs; cases hs
    · rw [if_neg he, List.mem_singleton] at hs
      subst hs
      obtain ⟨path, h1, h2, h3⟩ := avoid_chain he hr
      exact h3 (hp _ rfl h2 h1)

theorem checkDominance_ok {h : Hugr Ops.Op Meta} (ht : IsTree h) (g b a : Nat) (e : VError) :
    checkDominance h g b a e = .ok ↔
      ∃ entry rest, h.children g = entry :: rest ∧ Dominates (RegionEdge h g) entry b a := by
  have hrel : (fun a b => b ∈ regionSucc h g a) = RegionEdge h g := by
    funext a b; exact propext (mem_regionSucc h g a b)
  unfold checkDominance
  cases hc : h.children g with
  | nil => simp
  | cons entry rest =>
    simp only [check_ok]
    rw [← hc, dominates_iff (h.children g) (ht.child_once g) _ _ _ _ (by rw [hc]; simp), hrel]
    · constructor
      · intro hd; exact ⟨entry, rest, hc, hd⟩
      · rintro ⟨entry', rest', he, hd⟩
        rw [hc] at he
        cases he; exact hd
    · intro x y hxy; exact ((mem_regionSucc h g x y).1 hxy).2.1

end Verif.Validate
