import Verif.Validate.Lemmas
import Mathlib.Tactic.Common

/-!
# The checks of one node
-/
namespace Verif.Validate

open Verif.Graph Verif.Ops Verif.Types Verif.Passes

variable {Meta : Type}

theorem validatePortCounts_ok (h : Hugr Ops.Op Meta) (n : Nat) :
    forAll (validatePortCount h n) [.incoming, .outgoing] = .ok ↔
      (h.ops n).tagOk = true ∧ h.ins n = ((h.ops n).ports .incoming).length ∧
        h.outs n = ((h.ops n).ports .outgoing).length := by
  simp only [forAll_ok, List.mem_cons, List.not_mem_nil, or_false, forall_eq_or_imp, forall_eq]
  unfold validatePortCount
  by_cases ht : (h.ops n).tagOk = true
  · simp only [Dir.toOps, C10_port_count _ _ ht, Hugr.numPorts, ht, check_ok, true_and]
    exact and_congr decide_eq_true_iff decide_eq_true_iff
  · have ht' : (h.ops n).tagOk = false := by simpa using ht
    simp [Dir.toOps, (C10_invalid_tag_panics _ _ ht').1, ht']

theorem validateParent_ok {h : Hugr Ops.Op Meta} (ht : IsTree h) (n : Nat) (hn : h.live n = true) :
    validateParent h n = .ok ↔ ∀ p, h.hier.parent n = some p → MayContain (h.ops p) (h.ops n) := by
  unfold validateParent
  by_cases hr : n = h.moduleRoot
  · subst hr; simp [ht.root_top]
  · rw [if_neg hr, getParent_eq ht]
    obtain ⟨p, hp⟩ := ht.has_parent n hn hr
    simp [hp, contains_iff]

theorem validateEntrypoint_ok (h : Hugr Ops.Op Meta) (n : Nat) :
    validateEntrypoint h n = .ok ↔ (n = h.entrypoint → Container (h.ops n)) := by
  unfold validateEntrypoint
  split
  · rename_i he; simp [he, container_iff]
  · rename_i he; simp [he]

theorem validateConst_ok (C : Context) (n : Nat) (op : Ops.Op) :
    validateConst C n op = .ok ↔ ∀ t, op = .const t → C.constOk n = true := by
  cases op <;> simp [validateConst]

/-! ## Children -/

theorem validateCases_ok (h : Hugr Ops.Op Meta) (n : Nat) (rows : List (List Ty)) (other outs : List Ty) :
    ∀ (cs : List Nat) (i : Nat),
      validateCases h n (.conditional rows other outs) outs i cs = .ok ↔
        ∀ k c, cs[k]? = some c → ∃ r, rows[i + k]? = some r ∧ h.ops c = .case ⟨r ++ other, outs⟩ := by
  intro cs
  induction cs with
  | nil => intro i; simp [validateCases]
  | cons c cs ih =>
    intro i
    have hcase : validateCase n outs c (h.ops c) ((Op.conditional rows other outs).caseInputRow i) = .ok ↔
        ∃ r, rows[i]? = some r ∧ h.ops c = .case ⟨r ++ other, outs⟩ := by
      simp only [Op.caseInputRow]
      cases hr : rows[i]? with
      | none => cases h.ops c <;> simp [validateCase]
      | some r =>
        cases hc : h.ops c <;> simp [validateCase]
        rename_i s
        cases s; simp
    simp only [validateCases, andThen_ok, hcase, ih]
    constructor
    · rintro ⟨h1, h2⟩ k d hk
      cases k with
      | zero => simp at hk; subst hk; simpa using h1
      | succ k =>
        have := h2 k d (by simpa using hk)
        rwa [show i + (k + 1) = i + 1 + k by omega]
    · intro hall
      refine ⟨by simpa using hall 0 c (by simp), fun k d hk => ?_⟩
      have := hall (k + 1) d (by simpa using hk)
      rwa [show i + (k + 1) = i + 1 + k by omega] at this

theorem conditional_ok (h : Hugr Ops.Op Meta) (n : Nat) (rows : List (List Ty)) (other outs : List Ty)
    (cs : List Nat) :
    (rows.length = cs.length ∧ validateCases h n (.conditional rows other outs) outs 0 cs = .ok) ↔
      cs.map h.ops = rows.map fun r => .case ⟨r ++ other, outs⟩ := by
  rw [validateCases_ok]
  constructor
  · rintro ⟨hl, hall⟩
    apply List.ext_getElem?
    intro k
    rw [List.getElem?_map, List.getElem?_map]
    cases hc : cs[k]? with
    | none =>
      have hk : cs.length ≤ k := by simpa using hc
      have : rows[k]? = none := by simp; omega
      simp [this]
    | some c =>
      obtain ⟨r, hr, ho⟩ := hall k c hc
      rw [Nat.zero_add] at hr
      simp [hr, ho]
  · intro he
    refine ⟨by simpa using (congrArg List.length he).symm, fun k c hk => ?_⟩
    have := congrArg (·[k]?) he
    simp only [List.getElem?_map, hk, Option.map_some] at this
    rw [Nat.zero_add]
    cases hr : rows[k]? with
    | none => simp [hr] at this
    | some r => exact ⟨r, rfl, by simpa [hr] using this⟩

theorem validateCfgEdge_ok (h : Hugr Ops.Op Meta) (n : Nat) (l : Link) :
    validateCfgEdge h n l = .ok ↔ BlockLinkOk h l := by
  unfold validateCfgEdge BlockLinkOk
  cases hs : h.ops l.src <;> simp
  rename_i ins other rows
  cases hd : h.ops l.dst <;> simp [blockInput, Op.successorInput]
  all_goals simp only [eq_comm]

theorem validateEdges_ok {h : Hugr Ops.Op Meta} (ht : IsTree h) (n : Nat) :
    validateEdges h n (h.children n) = .ok ↔
      ∀ l ∈ h.links, l.src ∈ h.children n → l.dst ∈ h.children n → BlockLinkOk h l := by
  unfold validateEdges outputNeighbours nodeConnections
  simp only [forAll_ok, List.mem_map, List.mem_filter, decide_eq_true_eq]
  constructor
  · intro hall l hl hs hd
    have := hall l.src hs l.dst ⟨l, ⟨hl, rfl⟩, rfl⟩
    rw [getParent_eq ht, if_neg (by simpa using (mem_children ht _ _).1 hd), forAll_ok] at this
    exact (validateCfgEdge_ok h n l).1 (this l (by simp [hl]))
  · rintro hall s hs d ⟨l, ⟨hl, hls⟩, hld⟩
    split
    · rfl
    · rename_i hp
      rw [getParent_eq ht] at hp
      rw [forAll_ok]
      intro l' hl'
      simp only [List.mem_filter, Bool.and_eq_true, decide_eq_true_eq] at hl'
      rw [validateCfgEdge_ok]
      refine hall l' hl'.1 (hl'.2.1 ▸ hs) ?_
      rw [hl'.2.2, mem_children ht]
      simpa using hp

/-- The part of `ChildrenOk`, for a dataflow graph, that comes after the tags. -/
theorem validateIoNodes_ok (h : Hugr Ops.Op Meta) (n : Nat) (i o : List Ty) (cs : List Nat) :
    (∃ c rest, cs = c :: rest ∧ OpTag.isSuperset .input (h.ops c).opTag = true ∧
        validateSecond h n .output rest = .ok ∧ validateIoNodes h n ⟨i, o⟩ cs = .ok) ↔
      ∃ inp out rest, cs = inp :: out :: rest ∧
        h.ops inp = .input i ∧ h.ops out = .output o ∧ ∀ c ∈ rest, ¬ IsIO (h.ops c) := by
  cases cs with
  | nil => simp
  | cons a cs =>
    cases cs with
    | nil => simp [validateIoNodes]
    | cons b cs =>
      simp only [List.cons.injEq, validateSecond, check_ok, input_tag, validateIoNodes]
      constructor
      · rintro ⟨c, rest, ⟨rfl, rfl⟩, ⟨t1, h1⟩, h2, h3⟩
        simp only [validateSecond, check_ok, output_tag] at h2
        obtain ⟨t2, h2⟩ := h2
        simp only [h1, h2, Op.dataflowSignature] at h3
        simp only [Option.getD_some, andThen_ok, check_ok, decide_eq_true_eq, forAll_ok, io_tag] at h3
        obtain ⟨rfl, rfl, h3⟩ := h3
        exact ⟨_, _, _, ⟨rfl, rfl, rfl⟩, h1, h2, h3⟩
      · rintro ⟨inp, out, rest, ⟨rfl, rfl, rfl⟩, h1, h2, h3⟩
        refine ⟨_, _, ⟨rfl, rfl⟩, ⟨_, h1⟩, ?_, ?_⟩
        · simp only [validateSecond, check_ok, output_tag]; exact ⟨_, h2⟩
        · simp only [h1, h2, Op.dataflowSignature]
          simp only [Option.getD_some, andThen_ok, check_ok, decide_eq_true_eq, forAll_ok, io_tag]
          exact ⟨trivial, trivial, h3⟩

theorem validateCfgChildren_ok (h : Hugr Ops.Op Meta) (n : Nat) (sig : Signature) (cs : List Nat) :
    (∃ c rest, cs = c :: rest ∧ OpTag.isSuperset .dataflowBlock (h.ops c).opTag = true ∧
        validateSecond h n .basicBlockExit rest = .ok ∧ validateCfgChildren h n sig cs = .ok) ↔
      ∃ entry exit rest o r, cs = entry :: exit :: rest ∧
        h.ops entry = .dataflowBlock sig.input o r ∧ h.ops exit = .exitBlock sig.output ∧
        ∀ c ∈ rest, ∀ outs, h.ops c ≠ .exitBlock outs := by
  cases cs with
  | nil => simp
  | cons a cs =>
    cases cs with
    | nil => simp [validateCfgChildren]
    | cons b cs =>
      simp only [List.cons.injEq, validateSecond, check_ok, block_tag, validateCfgChildren]
      constructor
      · rintro ⟨c, rest, ⟨rfl, rfl⟩, ⟨i1, o1, r1, h1⟩, h2, h3⟩
        simp only [validateSecond, check_ok, exit_tag] at h2
        obtain ⟨t2, h2⟩ := h2
        simp only [h1, h2] at h3
        simp only [andThen_ok, check_ok, decide_eq_true_eq, forAll_ok, exit_tag_eq] at h3
        obtain ⟨rfl, rfl, h3⟩ := h3
        exact ⟨_, _, _, _, _, ⟨rfl, rfl, rfl⟩, h1, h2, h3⟩
      · rintro ⟨inp, out, rest, o, r, ⟨rfl, rfl, rfl⟩, h1, h2, h3⟩
        refine ⟨_, _, ⟨rfl, rfl⟩, ⟨_, _, _, h1⟩, ?_, ?_⟩
        · simp only [validateSecond, check_ok, exit_tag]; exact ⟨_, h2⟩
        · simp only [h1, h2]
          simp only [andThen_ok, check_ok, decide_eq_true_eq, forAll_ok, exit_tag_eq]
          trivial

theorem validateSecond_any (h : Hugr Ops.Op Meta) (n : Nat) (cs : List Nat) :
    validateSecond h n .any cs = .ok := by
  cases cs <;> simp [validateSecond, any_tag]

theorem validateChildren_ok {h : Hugr Ops.Op Meta} (ht : IsTree h) (n : Nat) :
    validateChildren h n = .ok ↔ ChildrenOk h n ∧
      (∀ sig, h.ops n = .cfg sig → ∀ l ∈ h.links, l.src ∈ h.children n → l.dst ∈ h.children n →
        BlockLinkOk h l) ∧
      ((body (h.ops n)).isSome = true → ∀ m, ¬ Relation.TransGen (RegionEdge h n) m m) := by
  have he := validateEdges_ok ht n
  have hd := validateDag_ok ht n
  -- dataflow graphs
  have hdf : ∀ (op : Ops.Op) (i o : List Ty), h.ops n = op →
      flags op = ⟨.dataflowChild, .input, .output, true, true, false⟩ →
      (∀ cs, validateOpChildren h n cs = validateIoNodes h n ⟨i, o⟩ cs) →
      (validateChildren h n = .ok ↔ (∃ inp out rest, h.children n = inp :: out :: rest ∧
        h.ops inp = .input i ∧ h.ops out = .output o ∧ ∀ c ∈ rest, ¬ IsIO (h.ops c)) ∧
        ∀ m, ¬ Relation.TransGen (RegionEdge h n) m m) := by
    intro op i o hop hfl hch
    rw [← validateIoNodes_ok h n i o, ← hd]
    unfold validateChildren
    rw [hop, hfl]
    simp only []
    cases hc : h.children n with
    | nil => simp
    | cons c cs =>
      simp only [andThen_ok, check_ok, hch]
      have : OpTag.isEmpty .dataflowChild = false := by decide
      simp [this, hc]
      tauto
  have hnone : ∀ op : Ops.Op, h.ops n = op → flags op = {} →
      (validateChildren h n = .ok ↔ h.children n = []) := by
    intro op hop hfl
    unfold validateChildren
    rw [hop, hfl]
    cases hc : h.children n with
    | nil => simp
    | cons c cs =>
      have : OpTag.isEmpty .none = true := by decide
      simp [this]
  unfold ChildrenOk
  cases hop : h.ops n
  case module =>
    unfold validateChildren validateOpChildren
    rw [hop]
    have : OpTag.isEmpty .moduleOp = false := by decide
    cases hc : h.children n <;>
      simp [flags, this, any_tag, validateSecond_any, Op.innerSignature, body]
  case conditional rows other outs =>
    have h0 : OpTag.isEmpty .case = false := by decide
    have h1 := conditional_ok h n rows other outs (h.children n)
    unfold validateChildren validateOpChildren
    rw [hop]
    simp only [flags]
    cases hc : h.children n with
    | nil =>
      simp [body]
    | cons c cs =>
      rw [hc] at h1
      simp only [andThen_ok, check_ok, decide_eq_true_eq, h1, h0, any_tag, validateSecond_any]
      simp [body]
      rintro hm rfl; simp at hm
  case cfg sig =>
    have h0 : OpTag.isEmpty .controlFlowChild = false := by decide
    have h1 := validateCfgChildren_ok h n sig (h.children n)
    simp only [body]
    rw [← h1]
    unfold validateChildren validateOpChildren
    rw [hop]
    simp only [flags]
    cases hc : h.children n with
    | nil => simp
    | cons c cs =>
      rw [hc] at he
      simp [h0, he]
      tauto
  all_goals first
    | (simp only [body]; rw [hnone _ hop rfl]; simp)
    | (simp only [body]
       rw [hdf _ _ _ hop rfl (fun cs => by unfold validateOpChildren; rw [hop]; rfl)]
       simp)

theorem validateNode_ok {h : Hugr Ops.Op Meta} (ht : IsTree h) (C : Context) (n : Nat)
    (hn : h.live n = true) :
    validateNode C h n = .ok ↔
      ((h.ops n).tagOk = true ∧ h.ins n = ((h.ops n).ports .incoming).length ∧
        h.outs n = ((h.ops n).ports .outgoing).length) ∧
      (∀ p, h.hier.parent n = some p → MayContain (h.ops p) (h.ops n)) ∧
      (n = h.entrypoint → Container (h.ops n)) ∧
      (ChildrenOk h n ∧
        (∀ sig, h.ops n = .cfg sig → ∀ l ∈ h.links, l.src ∈ h.children n → l.dst ∈ h.children n →
          BlockLinkOk h l) ∧
        ((body (h.ops n)).isSome = true → ∀ m, ¬ Relation.TransGen (RegionEdge h n) m m)) ∧
      ∀ t, h.ops n = .const t → C.constOk n = true := by
  unfold validateNode
  rw [andThen_ok, andThen_ok, andThen_ok, andThen_ok, validatePortCounts_ok, validateParent_ok ht n hn,
    validateEntrypoint_ok, validateChildren_ok ht, validateConst_ok]

end Verif.Validate
