import Verif.Patch.Untuple
import Verif.Patch.SimpleReplaceMeansProps

/-!
# The replacement that `UntuplePass` makes
-/
namespace Verif.Patch

open Verif.Graph Verif.Ops Verif.Passes Verif.Validate Verif.Dataflow Relation

variable {Meta W E : Type}

/-! ## Wiring -/

theorem connect_links {h g : Hugr Ops.Op Meta} {l : Link} (he : h.connect l = some g) :
    g = { h with links := h.links ++ [l] } := by
  unfold Hugr.connect at he
  split at he
  · cases he; rfl
  · cases he

theorem connectAll_eq {h g : Hugr Ops.Op Meta} {ls : List Link} (he : connectAll h ls = some g) :
    g = { h with links := h.links ++ ls } := by
  induction ls generalizing h with
  | nil => cases he; simp
  | cons l ls ih =>
    simp only [connectAll] at he
    cases hc : h.connect l with
    | none => rw [hc] at he; cases he
    | some h1 =>
      rw [hc] at he
      have e1 := connect_links hc
      rw [ih he, e1]
      simp

theorem connectAll_ok {h g : Hugr Ops.Op Meta} {ls : List Link} (ht : IsTree h) (hl : LinksOk h)
    (he : connectAll h ls = some g) : IsTree g ∧ LinksOk g := by
  induction ls generalizing h with
  | nil => cases he; exact ⟨ht, hl⟩
  | cons l ls ih =>
    simp only [connectAll] at he
    cases hc : h.connect l with
    | none => rw [hc] at he; cases he
    | some h1 =>
      rw [hc] at he
      obtain ⟨h2, h3⟩ := step_ok opsInfo.toOpInfo ht hl (.connect l) trivial hc
      exact ih h2 h3 he

/-- The links that wires make. -/
def wireLinks (dst : Nat) : Nat → List (Nat × Nat) → List Link
  | _, [] => []
  | port, (n, p) :: ws => ⟨n, p, dst, port⟩ :: wireLinks dst (port + 1) ws

theorem mem_wireLinks {dst port : Nat} {ws : List (Nat × Nat)} {l : Link} :
    l ∈ wireLinks dst port ws ↔ ∃ (j n p : Nat), ws[j]? = some (n, p) ∧ l = ⟨n, p, dst, port + j⟩ := by
  induction ws generalizing port with
  | nil => simp [wireLinks]
  | cons w ws ih =>
    obtain ⟨n, p⟩ := w
    simp only [wireLinks, List.mem_cons, ih]
    constructor
    · rintro (rfl | ⟨j, n', p', h1, rfl⟩)
      · exact ⟨0, n, p, rfl, rfl⟩
      · exact ⟨j + 1, n', p', by simpa using h1, by rw [Nat.add_assoc, Nat.add_comm 1 j]⟩
    · rintro ⟨j, n', p', h1, rfl⟩
      rcases j with _ | j
      · simp only [List.getElem?_cons_zero, Option.some.injEq, Prod.mk.injEq] at h1
        obtain ⟨rfl, rfl⟩ := h1
        exact .inl rfl
      · exact .inr ⟨j, n', p', by simpa using h1, by rw [Nat.add_assoc, Nat.add_comm 1 j]⟩

theorem wireUp_connect {h g : Hugr Ops.Op Meta} {l : Link} (he : wireUp h l = some g) : h.connect l = some g := by
  unfold wireUp at he
  split at he
  · split at he
    · cases he
    · exact he
  · exact he
  · cases he

theorem wireUpInputs_connect {h g : Hugr Ops.Op Meta} {dst port : Nat} {ws : List (Nat × Nat)}
    (he : wireUpInputs dst port h ws = some g) : connectAll h (wireLinks dst port ws) = some g := by
  induction ws generalizing h port with
  | nil => exact he
  | cons w ws ih =>
    obtain ⟨n, p⟩ := w
    simp only [wireUpInputs] at he
    cases hw : wireUp h ⟨n, p, dst, port⟩ with
    | none => rw [hw] at he; cases he
    | some h1 =>
      rw [hw] at he
      simp only [wireLinks, connectAll, wireUp_connect hw]
      exact ih he

/-! ## The Hugr -/

/-- What `untupleBody` makes: the DFG node 4 with input 5, output 6, and maybe a node 7 that makes a tuple. `ws` are the
wires to the output. -/
structure IsBody (r : Hugr Ops.Op Meta) (sig : Types.Signature) (types : List Types.Ty) (packs : Bool)
    (ws : List (Nat × Nat)) : Prop where
  tree : IsTree r
  linksOk : LinksOk r
  entry : r.entrypoint = 4
  root : r.moduleRoot = 0
  main : r.hier.parent 4 = some 1 ∧ r.ops 1 = .funcDefn "main" ⟨[], sig⟩
  dfg : r.ops 4 = .dfg sig
  inp : r.ops 5 = .input sig.input
  out : r.ops 6 = .output sig.output
  pack : packs = true → r.ops 7 = makeTupleOp types
  top : ∀ n, n ≤ 4 → n ≠ 1 → r.hier.parent n = some 1 ∨ r.hier.parent n = none
  children : r.children 4 = if packs then [5, 6, 7] else [5, 6]
  leaf : r.children 5 = [] ∧ r.children 6 = [] ∧ r.children 7 = []
  links : ∀ l, l ∈ r.links ↔ (l.src ≤ 4 ∧ l.dst ≤ 4 ∧ l ∈ r.links) ∨
    (packs = true ∧ ∃ k < sig.input.length, l = ⟨5, k, 7, k⟩) ∨
    ∃ (j n p : Nat), ws[j]? = some (n, p) ∧ l = ⟨n, p, 6, j⟩

/-- The first four nodes. -/
def mainAround (sig : Types.Signature) : List (Cmd Ops.Op Meta) :=
  [.addNodeWithParent 1 0 (.funcDefn "main" ⟨[], sig⟩), .addNodeWithParent 2 1 (.input sig.input),
    .addNodeWithParent 3 1 (.output sig.output), .addNodeWithParent 4 1 (.dfg sig)]

/-- The links between them. -/
def outerLinks (sig : Types.Signature) : List Link :=
  ((List.range sig.input.length).map fun p => ⟨2, p, 4, p⟩) ++ (List.range sig.output.length).map fun p => ⟨4, p, 3, p⟩

theorem outerLinks_outside {sig : Types.Signature} {l : Link} (hl : l ∈ outerLinks sig) : l.src ≤ 4 ∧ l.dst ≤ 4 := by
  unfold outerLinks at hl
  rcases List.mem_append.1 hl with hl | hl <;> obtain ⟨_, _, rfl⟩ := List.mem_map.1 hl <;> simp

theorem wired_ok {h g : Hugr Ops.Op Meta} {dst port : Nat} {ws : List (Nat × Nat)} (ht : IsTree h) (hl : LinksOk h)
    (he : wireUpInputs dst port h ws = some g) :
    IsTree g ∧ LinksOk g ∧ g = { h with links := h.links ++ wireLinks dst port ws } := by
  have e := wireUpInputs_connect he
  exact ⟨(connectAll_ok ht hl e).1, (connectAll_ok ht hl e).2, connectAll_eq e⟩

theorem untupleBody_spec {sig : Types.Signature} {types : List Types.Ty} {unpacked others : Nat} {r : Hugr Ops.Op Meta}
    (he : untupleBody sig types unpacked others = some r) :
    IsBody r sig types (decide (others ≠ 0)) (cycledWires sig unpacked ++ List.replicate others (7, 0)) := by
  unfold untupleBody dfgBuilder at he
  obtain ⟨h1, e1⟩ : ∃ h1 : Hugr Ops.Op Meta, run opsInfo.toOpInfo (Hugr.new opsInfo.toOpInfo .module) (mainAround sig) = some h1 := ⟨_, rfl⟩
  obtain ⟨t1, l1⟩ := run_ok opsInfo.toOpInfo (mainAround sig) _ h1 (new_tree opsInfo.toOpInfo .module).1 (new_tree opsInfo.toOpInfo .module).2
    ⟨rfl, fun _ e => by cases e; exact ⟨rfl, fun _ e => by cases e; exact ⟨rfl, fun _ e => by cases e; exact ⟨rfl, fun _ _ => trivial⟩⟩⟩⟩ e1
  have e1' := e1
  unfold mainAround at e1'
  rw [e1'] at he
  simp only [] at he
  cases e2 : connectAll h1 (outerLinks sig) with
  | none =>
    unfold outerLinks at e2
    rw [e2] at he; cases he
  | some h2 =>
    obtain ⟨t2, l2⟩ := connectAll_ok t1 l1 e2
    have q2 := connectAll_eq e2
    unfold outerLinks at e2
    rw [e2] at he
    simp only [] at he
    cases e1
    obtain ⟨h3, e3⟩ : ∃ h3 : Hugr Ops.Op Meta, run opsInfo.toOpInfo h2
        [.setEntrypoint 4, .addNodeWithParent 5 4 (.input sig.input), .addNodeWithParent 6 4 (.output sig.output)] = some h3 := by
      rw [q2]; exact ⟨_, rfl⟩
    obtain ⟨t3, l3⟩ := run_ok opsInfo.toOpInfo _ h2 h3 t2 l2
      (by
        rw [q2]
        exact ⟨trivial, fun _ e => by cases e; exact ⟨rfl, fun _ e => by cases e; exact ⟨rfl, fun _ _ => trivial⟩⟩⟩) e3
    rw [e3] at he
    simp only [] at he
    rw [q2] at e3
    by_cases ho : others = 0
    · subst ho
      rw [if_pos rfl] at he
      obtain ⟨t4, l4, q4⟩ := wired_ok t3 l3 he
      cases e3
      refine { tree := t4, linksOk := l4, entry := by rw [q4], root := by rw [q4]; rfl, main := by rw [q4]; exact ⟨rfl, rfl⟩
               dfg := by rw [q4]; rfl, inp := by rw [q4]; rfl, out := by rw [q4]; rfl, pack := nofun
               top := ?_, children := by rw [q4]; rfl, leaf := by rw [q4]; exact ⟨rfl, rfl, rfl⟩, links := ?_ }
      · intro n h1 h2
        rw [q4]
        match n, h1, h2 with
        | 0, _, _ => exact .inr rfl
        | 2, _, _ => exact .inl rfl
        | 3, _, _ => exact .inl rfl
        | 4, _, _ => exact .inl rfl
      · intro l
        have hl : l ∈ r.links ↔ l ∈ outerLinks sig ∨ l ∈ wireLinks 6 0 (cycledWires sig unpacked) := by
          rw [q4]; simp [Hugr.new]
        rw [hl, mem_wireLinks]
        simp only [Nat.zero_add, List.replicate_zero, List.append_nil]
        constructor
        · rintro (h1 | h1)
          · exact .inl ⟨(outerLinks_outside h1).1, (outerLinks_outside h1).2, .inl h1⟩
          · exact .inr (.inr h1)
        · rintro (h1 | ⟨h1, _⟩ | h1)
          · exact h1.2.2
          · cases h1
          · exact .inr h1
    · rw [if_neg ho] at he
      obtain ⟨h4, e4⟩ : ∃ h4, h3.addNodeWithParent opsInfo.toOpInfo 7 4 (makeTupleOp types) = some h4 := by
        cases e3; exact ⟨_, rfl⟩
      rw [e4] at he
      simp only [] at he
      obtain ⟨t4, l4⟩ := step_ok opsInfo.toOpInfo t3 l3 (.addNodeWithParent 7 4 (makeTupleOp types)) (by cases e3; rfl) e4
      cases e5 : wireUpInputs 7 0 h4 (inputWires sig) with
      | none => rw [e5] at he; cases he
      | some h5 =>
        rw [e5] at he
        simp only [] at he
        obtain ⟨t5, l5, q5⟩ := wired_ok t4 l4 e5
        obtain ⟨t6, l6, q6⟩ := wired_ok t5 l5 he
        cases e3
        cases e4
        rw [q5] at q6
        have hd : decide (others ≠ 0) = true := by simpa using ho
        rw [hd]
        refine { tree := t6, linksOk := l6, entry := by rw [q6], root := by rw [q6]; rfl, main := by rw [q6]; exact ⟨rfl, rfl⟩
                 dfg := by rw [q6]; rfl, inp := by rw [q6]; rfl, out := by rw [q6]; rfl, pack := fun _ => by rw [q6]; rfl
                 top := ?_, children := by rw [q6]; rfl, leaf := by rw [q6]; exact ⟨rfl, rfl, rfl⟩, links := ?_ }
        · intro n h1 h2
          rw [q6]
          match n, h1, h2 with
          | 0, _, _ => exact .inr rfl
          | 2, _, _ => exact .inl rfl
          | 3, _, _ => exact .inl rfl
          | 4, _, _ => exact .inl rfl
        · intro l
          have hl : l ∈ r.links ↔ l ∈ outerLinks sig ∨ l ∈ wireLinks 7 0 (inputWires sig) ∨
              l ∈ wireLinks 6 0 (cycledWires sig unpacked ++ List.replicate others (7, 0)) := by
            rw [q6]; simp [Hugr.new, or_assoc]
          rw [hl, mem_wireLinks, mem_wireLinks]
          simp only [Nat.zero_add]
          constructor
          · rintro (h1 | ⟨j, n, p, h1, rfl⟩ | h1)
            · exact .inl ⟨(outerLinks_outside h1).1, (outerLinks_outside h1).2, .inl h1⟩
            · unfold inputWires at h1
              rw [List.getElem?_map] at h1
              obtain ⟨x, h2, h3⟩ := Option.map_eq_some_iff.1 h1
              obtain ⟨h4, h5⟩ := List.getElem?_eq_some_iff.1 h2
              rw [List.getElem_range] at h5
              rw [List.length_range] at h4
              subst h5
              cases h3
              exact .inr (.inl ⟨trivial, j, h4, rfl⟩)
            · exact .inr (.inr h1)
          · rintro (h1 | ⟨_, k, h1, rfl⟩ | h1)
            · exact h1.2.2
            · refine .inr (.inl ⟨k, 5, k, ?_, rfl⟩)
              unfold inputWires
              rw [List.getElem?_map, List.getElem?_range h1]; rfl
            · exact .inr (.inr h1)

end Verif.Patch
