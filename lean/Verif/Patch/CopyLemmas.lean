import Verif.Patch.CopySpec
import Verif.Graph.Bfs

/-!
# What `copy_descendants` does
-/
namespace Verif.Patch

open Verif.Graph Verif.Ops Verif.Validate Verif.Passes

variable {Meta : Type}

theorem onPath_above {h : Hier} : ∀ {fuel p n : Nat}, h.onPath fuel p n = true → Above h.parent p n
  | 0, p, n, hp => by
    simp only [Hier.onPath, beq_iff_eq] at hp
    subst hp; exact .refl _
  | fuel + 1, p, n, hp => by
    simp only [Hier.onPath, Bool.or_eq_true, beq_iff_eq] at hp
    rcases hp with rfl | hp
    · exact .refl _
    · cases hq : h.parent p with
      | none => rw [hq] at hp; simp at hp
      | some q =>
        rw [hq] at hp
        exact .step hq (onPath_above hp)

theorem Above.mono {f F : Nat → Option Nat} (hs : ∀ n p, f n = some p → F n = some p) {a b : Nat}
    (ha : Above f a b) : Above F a b := by
  induction ha with
  | refl => exact .refl _
  | step h1 _ ih => exact .step (hs _ _ h1) ih

/-- A new node is attached. -/
theorem setParent_new {g : Hugr Ops.Op Meta} {F : Nat → Option Nat} (hF : ∀ n p, F n = some p → ¬ Above F p n)
    (hs : ∀ n p, g.hier.parent n = some p → F n = some p) {c p : Nat} (hc : g.hier.parent c = none)
    (hlc : g.live c = true) (hlp : g.live p = true) (hf : F c = some p) :
    g.setParent c p = some { g with hier :=
      { parent := upd g.hier.parent c (some p), children := upd g.hier.children p (g.hier.children p ++ [c]) } } := by
  have hd : g.hier.detach c = g.hier := by unfold Hier.detach; rw [hc]
  have hp : g.hier.onPath g.cap p c = false := by
    rw [Bool.eq_false_iff]
    intro hp
    exact hF c p hf (Above.mono hs (onPath_above hp))
  unfold Hugr.setParent
  rw [hlc, hlp, hd]
  unfold Hier.pushChild Hier.canAttach
  rw [hc, hp]
  rfl

/-- All but the hierarchy is as before. -/
def SameBut (g g' : Hugr Ops.Op Meta) : Prop := g' = { g with hier := g'.hier }

theorem SameBut.refl (g : Hugr Ops.Op Meta) : SameBut g g := rfl

theorem SameBut.trans {a b c : Hugr Ops.Op Meta} (h1 : SameBut a b) (h2 : SameBut b c) : SameBut a c := by
  unfold SameBut at *
  rw [h2, h1]

/-- Copies are attached to one node. -/
theorem attach_list {m : List (Nat × Nat)} {F : Nat → Option Nat} (hF : ∀ n p, F n = some p → ¬ Above F p n)
    {p : Nat} : ∀ {cs : List Nat} {g : Hugr Ops.Op Meta}, (∀ n q, g.hier.parent n = some q → F n = some q) →
    (∀ c ∈ cs, (m.lookup c).isSome = true) → (∀ c ∈ cs, g.hier.parent (copyOf m c) = none) →
    (∀ c ∈ cs, g.live (copyOf m c) = true) → g.live p = true → (∀ c ∈ cs, F (copyOf m c) = some p) →
    (cs.map (copyOf m)).Nodup →
    ∃ g', attachCopies m p g cs = some g' ∧ SameBut g g' ∧
      (∀ n, g'.hier.parent n = if n ∈ cs.map (copyOf m) then some p else g.hier.parent n) ∧
      (∀ n, g'.hier.children n = if n = p then g.hier.children p ++ cs.map (copyOf m) else g.hier.children n)
  | [], g, _, _, _, _, _, _, _ => ⟨g, rfl, .refl _, by simp, by intro n; by_cases hn : n = p <;> simp [hn]⟩
  | c :: cs, g, hs, hm, hn, hl, hp, hf, hnd => by
    have hlk : m.lookup c = some (copyOf m c) := by
      have := hm c (by simp)
      unfold copyOf
      cases hc : m.lookup c with
      | none => rw [hc] at this; simp at this
      | some x => rfl
    have h1 := setParent_new hF hs (hn c (by simp)) (hl c (by simp)) hp (hf c (by simp))
    rw [List.map_cons, List.nodup_cons] at hnd
    obtain ⟨g', h2, h3, h4, h5⟩ := attach_list hF (p := p) (cs := cs) (m := m)
      (g := { g with hier := { parent := upd g.hier.parent (copyOf m c) (some p), children := upd g.hier.children p (g.hier.children p ++ [copyOf m c]) } })
      (by
        intro n q hq
        simp only [upd] at hq
        by_cases e : n = copyOf m c
        · rw [if_pos e] at hq; cases hq
          rw [e]; exact hf c (by simp)
        · rw [if_neg e] at hq; exact hs n q hq)
      (fun x hx => hm x (by simp [hx]))
      (fun x hx => by
        simp only [upd]
        rw [if_neg, hn x (by simp [hx])]
        intro e
        exact hnd.1 (e ▸ List.mem_map_of_mem hx))
      (fun x hx => hl x (by simp [hx])) hp (fun x hx => hf x (by simp [hx])) hnd.2
    refine ⟨g', ?_, ?_, ?_, ?_⟩
    · unfold attachCopies at h2 ⊢
      simp only [each, hlk, h1]
      exact h2
    · exact SameBut.trans (by unfold SameBut; rfl) h3
    · intro n
      rw [h4]
      simp only [upd, List.map_cons, List.mem_cons]
      by_cases e : n = copyOf m c
      · simp [e]
      · simp [e]
    · intro n
      rw [h5]
      simp only [upd]
      by_cases e : n = p
      · simp [e]
      · simp [e]

/-- The hierarchy below copies is made. -/
theorem attach_rest {m : List (Nat × Nat)} {F : Nat → Option Nat} (hF : ∀ n p, F n = some p → ¬ Above F p n)
    {ch : Nat → List Nat} : ∀ {todo : List Nat} {g : Hugr Ops.Op Meta},
    (∀ n q, g.hier.parent n = some q → F n = some q) →
    (∀ x ∈ todo, (m.lookup x).isSome = true) → (∀ x ∈ todo, g.hier.children x = ch x) →
    (∀ x ∈ todo, ∀ c ∈ ch x, (m.lookup c).isSome = true) →
    (∀ x ∈ todo, ∀ c ∈ ch x, g.hier.parent (copyOf m c) = none) →
    (∀ x ∈ todo, ∀ c ∈ ch x, g.live (copyOf m c) = true) → (∀ x ∈ todo, g.live (copyOf m x) = true) →
    (∀ x ∈ todo, ∀ c ∈ ch x, F (copyOf m c) = some (copyOf m x)) →
    (∀ x ∈ todo, ((ch x).map (copyOf m)).Nodup) → (todo.map (copyOf m)).Nodup →
    (∀ x ∈ todo, ∀ y ∈ todo, x ≠ copyOf m y) →
    ∃ g', each (attachBelow m) g todo = some g' ∧ SameBut g g' ∧
      (∀ n q, g'.hier.parent n = some q ↔ g.hier.parent n = some q ∨
        ∃ x ∈ todo, ∃ c ∈ ch x, n = copyOf m c ∧ q = copyOf m x) ∧
      (∀ x ∈ todo, g'.hier.children (copyOf m x) = g.hier.children (copyOf m x) ++ (ch x).map (copyOf m)) ∧
      (∀ n, n ∉ todo.map (copyOf m) → g'.hier.children n = g.hier.children n)
  | [], g, _, _, _, _, _, _, _, _, _, _, _ => ⟨g, rfl, .refl _, by simp, by simp, by simp⟩
  | x :: todo, g, hs, hm, hch, hcm, hcn, hcl, hl, hf, hnd, hnt, hxy => by
    have hlk : m.lookup x = some (copyOf m x) := by
      have := hm x (by simp)
      unfold copyOf
      cases hc : m.lookup x with
      | none => rw [hc] at this; simp at this
      | some x => rfl
    obtain ⟨g1, h1, h2, h3, h4⟩ := attach_list hF (m := m) (p := copyOf m x) (cs := ch x) hs (hcm x (by simp))
      (hcn x (by simp)) (hcl x (by simp)) (hl x (by simp)) (hf x (by simp)) (hnd x (by simp))
    rw [List.map_cons, List.nodup_cons] at hnt
    have hlive : g1.live = g.live := by rw [h2]
    obtain ⟨g', k1, k2, k3, k4, k5⟩ := attach_rest hF (m := m) (ch := ch) (todo := todo) (g := g1)
      (by
        intro n q hq
        rw [h3] at hq
        by_cases e : n ∈ (ch x).map (copyOf m)
        · rw [if_pos e] at hq; cases hq
          obtain ⟨c, hc, rfl⟩ := List.mem_map.1 e
          exact hf x (by simp) c hc
        · rw [if_neg e] at hq; exact hs n q hq)
      (fun y hy => hm y (by simp [hy]))
      (fun y hy => by
        rw [h4, if_neg (hxy y (by simp [hy]) x (by simp))]
        exact hch y (by simp [hy]))
      (fun y hy => hcm y (by simp [hy]))
      (fun y hy c hc => by
        rw [h3, if_neg, hcn y (by simp [hy]) c hc]
        intro e
        obtain ⟨c', hc', e'⟩ := List.mem_map.1 e
        have f1 := hf x (by simp) c' hc'
        have f2 := hf y (by simp [hy]) c hc
        rw [e', f2] at f1
        have : copyOf m y = copyOf m x := Option.some.inj f1
        exact hnt.1 (this ▸ List.mem_map_of_mem hy))
      (fun y hy => by rw [hlive]; exact hcl y (by simp [hy]))
      (fun y hy => by rw [hlive]; exact hl y (by simp [hy]))
      (fun y hy => hf y (by simp [hy])) (fun y hy => hnd y (by simp [hy])) hnt.2
      (fun y hy z hz => hxy y (by simp [hy]) z (by simp [hz]))
    refine ⟨g', ?_, h2.trans k2, ?_, ?_, ?_⟩
    · have e : g.children x = ch x := hch x (by simp)
      simp only [each, attachBelow, hlk]
      rw [e, h1]
      exact k1
    · intro n q
      rw [k3, h3]
      by_cases e : n ∈ (ch x).map (copyOf m)
      · rw [if_pos e]
        obtain ⟨c, hc, rfl⟩ := List.mem_map.1 e
        have hnone := hcn x (by simp) c hc
        constructor
        · rintro (e' | ⟨y, hy, c', hc', e1, e2⟩)
          · exact .inr ⟨x, by simp, c, hc, rfl, (Option.some.inj e').symm⟩
          · exact .inr ⟨y, by simp [hy], c', hc', e1, e2⟩
        · rintro (e' | ⟨y, hy, c', hc', e1, e2⟩)
          · rw [hnone] at e'; cases e'
          · have f1 := hf x (by simp) c hc
            have f2 := hf y hy c' hc'
            rw [e1, f2] at f1
            left; rw [e2, ← f1]
      · rw [if_neg e]
        constructor
        · rintro (e' | ⟨y, hy, c', hc', e1, e2⟩)
          · exact .inl e'
          · exact .inr ⟨y, by simp [hy], c', hc', e1, e2⟩
        · rintro (e' | ⟨y, hy, c', hc', e1, e2⟩)
          · exact .inl e'
          · rcases List.mem_cons.1 hy with rfl | hy
            · exact absurd (e1 ▸ List.mem_map_of_mem hc') e
            · exact .inr ⟨y, hy, c', hc', e1, e2⟩
    · intro y hy
      rcases List.mem_cons.1 hy with rfl | hy
      · rw [k5 _ hnt.1, h4, if_pos rfl]
      · rw [k4 y hy, h4, if_neg]
        intro e
        exact hnt.1 (e ▸ List.mem_map_of_mem hy)
    · intro n hn
      simp only [List.map_cons, List.mem_cons, not_or] at hn
      rw [k5 n hn.2, h4, if_neg hn.1]

/-- The new nodes. -/
theorem add_list (h : Hugr Ops.Op Meta) : ∀ {m : List (Nat × Nat)} {g : Hugr Ops.Op Meta},
    (m.map Prod.snd).Nodup → (∀ e ∈ m, g.live e.2 = false) →
    ∃ g', each (copyNode h) g m = some g' ∧
      (∀ n, g'.live n = true ↔ g.live n = true ∨ n ∈ m.map Prod.snd) ∧
      (∀ e ∈ m, g'.ins e.2 = h.ins e.1 ∧ g'.outs e.2 = h.outs e.1) ∧
      (∀ n, n ∉ m.map Prod.snd → g'.ins n = g.ins n ∧ g'.outs n = g.outs n ∧ g'.ops n = g.ops n) ∧
      g'.hier = g.hier ∧ g'.links = g.links ∧ g'.metadata = g.metadata ∧ g'.moduleRoot = g.moduleRoot ∧
      g'.entrypoint = g.entrypoint ∧ g.cap ≤ g'.cap ∧ ∀ e ∈ m, e.2 < g'.cap
  | [], g, _, _ => ⟨g, rfl, by simp, by simp, by simp, rfl, rfl, rfl, rfl, rfl, le_refl _, by simp⟩
  | e :: m, g, hnd, hf => by
    rw [List.map_cons, List.nodup_cons] at hnd
    let g1 : Hugr Ops.Op Meta := { g with
      cap := max g.cap (e.2 + 1)
      live := upd g.live e.2 true
      ins := upd (upd g.ins e.2 (opsInfo.toOpInfo.inputs opsInfo.toOpInfo.default)) e.2 (h.ins e.1)
      outs := upd (upd g.outs e.2 (opsInfo.toOpInfo.outputs opsInfo.toOpInfo.default)) e.2 (h.outs e.1)
      ops := upd g.ops e.2 opsInfo.toOpInfo.default }
    have h1 : copyNode h g e = some g1 := by
      unfold copyNode Hugr.addNode
      rw [hf e (by simp)]
      rfl
    obtain ⟨g', k1, k2, k3, k4, k5, k6, k7, k8, k9, k10, k11⟩ := add_list h (m := m) (g := g1) hnd.2 (by
      intro x hx
      change upd g.live e.2 true x.2 = false
      unfold upd
      rw [if_neg, hf x (by simp [hx])]
      intro e'
      exact hnd.1 (e' ▸ List.mem_map_of_mem hx))
    refine ⟨g', ?_, ?_, ?_, ?_, k5, k6, k7, k8, k9, le_trans (le_max_left _ _) k10, ?_⟩
    · simp only [each, h1]; exact k1
    · intro n
      rw [k2]
      change upd g.live e.2 true n = true ∨ _ ↔ _
      unfold upd
      by_cases hn : n = e.2 <;> simp [hn]
    · intro x hx
      rcases List.mem_cons.1 hx with rfl | hx
      · obtain ⟨i, o, _⟩ := k4 x.2 hnd.1
        rw [i, o]
        simp [g1, upd]
      · exact k3 x hx
    · intro n hn
      simp only [List.map_cons, List.mem_cons, not_or] at hn
      obtain ⟨i, o, p⟩ := k4 n hn.2
      rw [i, o, p]
      simp [g1, upd, hn.1]
    · intro x hx
      rcases List.mem_cons.1 hx with rfl | hx
      · exact lt_of_lt_of_le (lt_of_lt_of_le (Nat.lt_succ_self _) (le_max_right g.cap _)) k10
      · exact k11 x hx

/-- The operations and metadata of copies. -/
theorem weight_list {sub : Ops.Op → Option Ops.Op} {m : List (Nat × Nat)} :
    ∀ {todo : List Nat} {g : Hugr Ops.Op Meta}, (∀ x ∈ todo, (m.lookup x).isSome = true) →
    (∀ x ∈ todo, (sub (g.ops x)).isSome = true) → (∀ x ∈ todo, ∀ y ∈ todo, x ≠ copyOf m y) →
    (todo.map (copyOf m)).Nodup →
    ∃ g', each (copyWeight sub m) g todo = some g' ∧
      g' = { g with ops := g'.ops, metadata := g'.metadata } ∧
      (∀ x ∈ todo, sub (g.ops x) = some (g'.ops (copyOf m x)) ∧ g'.metadata (copyOf m x) = g.metadata x) ∧
      ∀ n, n ∉ todo.map (copyOf m) → g'.ops n = g.ops n ∧ g'.metadata n = g.metadata n
  | [], g, _, _, _, _ => ⟨g, rfl, rfl, by simp, by simp⟩
  | x :: todo, g, hm, hs, hxy, hnd => by
    have hlk : m.lookup x = some (copyOf m x) := by
      have := hm x (by simp)
      unfold copyOf
      cases hc : m.lookup x with
      | none => rw [hc] at this; simp at this
      | some x => rfl
    obtain ⟨op, hop⟩ := Option.isSome_iff_exists.1 (hs x (by simp))
    rw [List.map_cons, List.nodup_cons] at hnd
    let g1 : Hugr Ops.Op Meta :=
      { g with ops := upd g.ops (copyOf m x) op, metadata := upd g.metadata (copyOf m x) (g.metadata x) }
    have h1 : copyWeight sub m g x = some g1 := by
      unfold copyWeight; rw [hlk, hop]
    have hold : ∀ y ∈ todo, g1.ops y = g.ops y ∧ g1.metadata y = g.metadata y := by
      intro y hy
      have := hxy y (by simp [hy]) x (by simp)
      simp [g1, upd, this]
    obtain ⟨g', k1, k2, k3, k4⟩ := weight_list (sub := sub) (m := m) (todo := todo) (g := g1)
      (fun y hy => hm y (by simp [hy])) (fun y hy => by rw [(hold y hy).1]; exact hs y (by simp [hy]))
      (fun y hy w hw => hxy y (by simp [hy]) w (by simp [hw])) hnd.2
    refine ⟨g', ?_, ?_, ?_, ?_⟩
    · simp only [each, h1]; exact k1
    · rw [k2]
    · intro y hy
      rcases List.mem_cons.1 hy with rfl | hy
      · obtain ⟨i, j⟩ := k4 _ hnd.1
        rw [i, j, hop]
        simp [g1, upd]
      · obtain ⟨i, j⟩ := k3 y hy
        rw [(hold y hy).1] at i
        rw [(hold y hy).2] at j
        exact ⟨i, j⟩
    · intro n hn
      simp only [List.map_cons, List.mem_cons, not_or] at hn
      obtain ⟨i, j⟩ := k4 n hn.2
      rw [i, j]
      simp [g1, upd, hn.1]

theorem insertSorted_perm (n : Nat) : ∀ l, (insertSorted n l).Perm (n :: l)
  | [] => .refl _
  | x :: xs => by
    unfold insertSorted
    by_cases hx : n ≤ x
    · rw [if_pos hx]
    · rw [if_neg hx]
      exact ((insertSorted_perm n xs).cons x).trans (.swap n x xs)

theorem sortNodes_perm : ∀ l, (sortNodes l).Perm l
  | [] => .refl _
  | x :: xs => by
    unfold sortNodes
    exact (insertSorted_perm x _).trans ((sortNodes_perm xs).cons x)

/-! ## The map -/

theorem lookup_zip {a : Nat} : ∀ {xs ys : List Nat}, xs.length = ys.length →
    (((xs.zip ys).lookup a).isSome = true ↔ a ∈ xs)
  | [], [], _ => by simp
  | x :: xs, y :: ys, hl => by
    simp only [List.length_cons, Nat.add_right_cancel_iff] at hl
    rw [List.zip_cons_cons, List.lookup_cons, List.mem_cons]
    by_cases e : a = x
    · simp [e]
    · have : (a == x) = false := by simpa using e
      rw [this]
      simp only [e, false_or]
      exact lookup_zip hl

theorem copy_mem {a : Nat} {xs ys : List Nat} (hl : xs.length = ys.length) (ha : a ∈ xs) :
    (a, copyOf (xs.zip ys) a) ∈ xs.zip ys := by
  have := (lookup_zip hl).2 ha
  obtain ⟨b, hb⟩ := Option.isSome_iff_exists.1 this
  have hm : (a, b) ∈ xs.zip ys := by
    clear this hl ha
    induction xs generalizing ys with
    | nil => simp at hb
    | cons x xs ih =>
      cases ys with
      | nil => simp at hb
      | cons y ys =>
        rw [List.zip_cons_cons, List.lookup_cons] at hb
        rw [List.zip_cons_cons]
        by_cases e : a = x
        · simp [e] at hb; simp [e, hb]
        · have e' : (a == x) = false := by simpa using e
          rw [e'] at hb
          exact List.mem_cons_of_mem _ (ih hb)
  unfold copyOf
  rw [hb]; exact hm

theorem zip_snd_inj {a b c : Nat} : ∀ {xs ys : List Nat}, ys.Nodup → (a, c) ∈ xs.zip ys → (b, c) ∈ xs.zip ys → a = b
  | [], _, _, h1, _ => by simp at h1
  | _ :: _, [], _, h1, _ => by simp at h1
  | x :: xs, y :: ys, hnd, h1, h2 => by
    rw [List.nodup_cons] at hnd
    rw [List.zip_cons_cons, List.mem_cons] at h1 h2
    rcases h1 with h1 | h1 <;> rcases h2 with h2 | h2
    · cases h1; cases h2; rfl
    · cases h1; exact absurd (List.of_mem_zip h2).2 hnd.1
    · cases h2; exact absurd (List.of_mem_zip h1).2 hnd.1
    · exact zip_snd_inj hnd.2 h1 h2

/-! ## The hierarchy that is made -/

/-- The parents in the end. -/
def copyParent (h : Hugr Ops.Op Meta) (root np : Nat) (nodes : List Nat) (μ : Nat → Nat) (x : Nat) : Option Nat :=
  match nodes.find? (fun a => μ a = x) with
  | some a => (h.hier.parent a).map fun q => if q = root then np else μ q
  | none => h.hier.parent x

/-- The nodes to copy and where the copies go. -/
structure Copying (h : Hugr Ops.Op Meta) (root np : Nat) (nodes : List Nat) (μ : Nat → Nat) : Prop where
  tree : IsTree h
  liveR : h.live root = true
  liveP : h.live np = true
  mem : ∀ n, n ∈ nodes ↔ Inside h root n
  keep : ∀ n, n ∉ nodes → μ n = n
  fresh : ∀ n ∈ nodes, h.live (μ n) = false
  inj : ∀ a ∈ nodes, ∀ b ∈ nodes, μ a = μ b → a = b

namespace Copying

variable {h : Hugr Ops.Op Meta} {root np : Nat} {nodes : List Nat} {μ : Nat → Nat}
  (z : Copying h root np nodes μ)
include z

theorem parent_some {a : Nat} (ha : a ∈ nodes) : ∃ q, h.hier.parent a = some q ∧ (q = root ∨ q ∈ nodes) := by
  obtain ⟨q, hq, hqr⟩ := (z.mem a).1 ha
  refine ⟨q, hq, ?_⟩
  rcases Dataflow.above_cases hqr with e | ⟨y, hy, hyr⟩
  · exact .inl e
  · exact .inr ((z.mem q).2 ⟨y, hy, hyr⟩)

theorem child_mem {a c : Nat} (ha : a ∈ nodes ∨ a = root) (hc : c ∈ h.hier.children a) : c ∈ nodes := by
  rw [z.mem]
  have hp := (z.tree.child_iff _ _).1 hc
  rcases ha with ha | rfl
  · obtain ⟨q, hq, hqr⟩ := (z.mem a).1 ha
    exact ⟨a, hp, .step hq hqr⟩
  · exact .child hp

theorem parent_new {a q : Nat} (ha : a ∈ nodes) (hq : h.hier.parent a = some q) :
    copyParent h root np nodes μ (μ a) = some (if q = root then np else μ q) := by
  unfold copyParent
  cases hf : nodes.find? (fun b => μ b = μ a) with
  | none => exact absurd (List.find?_eq_none.1 hf a ha) (by simp)
  | some b =>
    have h1 := List.mem_of_find?_eq_some hf
    have h2 := List.find?_some hf
    simp only [decide_eq_true_eq] at h2
    rw [z.inj b h1 a ha h2]
    simp only [hq, Option.map_some]

omit z in
theorem parent_old {n : Nat} (hn : ∀ a ∈ nodes, n ≠ μ a) : copyParent h root np nodes μ n = h.hier.parent n := by
  unfold copyParent
  have : nodes.find? (fun b => μ b = n) = none := by
    rw [List.find?_eq_none]
    intro a ha
    simp only [decide_eq_true_eq]
    exact fun e => hn a ha e.symm
  rw [this]

theorem live_old {n : Nat} (hn : h.live n = true) : ∀ a ∈ nodes, n ≠ μ a := by
  rintro a ha rfl
  rw [z.fresh a ha] at hn; cases hn

theorem new_no_parent {a : Nat} (ha : a ∈ nodes) : h.hier.parent (μ a) = none := by
  cases hp : h.hier.parent (μ a) with
  | none => rfl
  | some q =>
    have := (z.tree.parent_live _ _ hp).1
    rw [z.fresh a ha] at this; cases this

theorem above_old {a b : Nat} (ha : h.live a = true) (hab : Above (copyParent h root np nodes μ) a b) :
    h.live b = true ∧ Above h.hier.parent a b := by
  induction hab with
  | refl => exact ⟨ha, .refl _⟩
  | @step n p m hp _ ih =>
    rw [parent_old (z.live_old ha)] at hp
    obtain ⟨h1, h2⟩ := ih (z.tree.parent_live _ _ hp).2
    exact ⟨h1, .step hp h2⟩

theorem above_new {x b : Nat} (hab : Above (copyParent h root np nodes μ) x b) :
    ∀ a ∈ nodes, x = μ a → (∃ c ∈ nodes, b = μ c ∧ Above h.hier.parent a c) ∨ Above h.hier.parent np b := by
  induction hab with
  | refl => rintro a ha rfl; exact .inl ⟨a, ha, rfl, .refl _⟩
  | @step n p m hp hpm ih =>
    rintro a ha rfl
    obtain ⟨q, hq, hor⟩ := z.parent_some ha
    rw [z.parent_new ha hq] at hp
    by_cases e : q = root
    · rw [if_pos e] at hp; cases hp
      exact .inr (z.above_old z.liveP hpm).2
    · rw [if_neg e] at hp; cases hp
      rcases ih q (hor.resolve_left e) rfl with ⟨c, hc, e1, h2⟩ | h2
      · exact .inl ⟨c, hc, e1, .step hq h2⟩
      · exact .inr h2

theorem above_live {a b : Nat} (ha : h.live a = true) (hab : Above h.hier.parent a b) : h.live b = true := by
  induction hab with
  | refl => exact ha
  | step hp _ ih => exact ih (z.tree.parent_live _ _ hp).2

theorem acyclic (n p : Nat) (hp : copyParent h root np nodes μ n = some p) :
    ¬ Above (copyParent h root np nodes μ) p n := by
  intro ha
  by_cases hn : ∃ a ∈ nodes, n = μ a
  · obtain ⟨a, hm, rfl⟩ := hn
    obtain ⟨q, hq, hor⟩ := z.parent_some hm
    rw [z.parent_new hm hq] at hp
    by_cases e : q = root
    · rw [if_pos e] at hp; cases hp
      have := (z.above_old z.liveP ha).1
      rw [z.fresh a hm] at this; cases this
    · rw [if_neg e] at hp; cases hp
      rcases z.above_new ha q (hor.resolve_left e) rfl with ⟨c, hc, e1, h2⟩ | h2
      · rw [z.inj a hm c hc e1] at hq
        exact z.tree.acyclic _ _ hq h2
      · have := z.above_live z.liveP h2
        rw [z.fresh a hm] at this; cases this
  · have hn : ∀ a ∈ nodes, n ≠ μ a := fun a ha e => hn ⟨a, ha, e⟩
    rw [parent_old hn] at hp
    exact z.tree.acyclic _ _ hp (z.above_old (z.tree.parent_live _ _ hp).2 ha).2

theorem sub (n p : Nat) (hp : h.hier.parent n = some p) : copyParent h root np nodes μ n = some p := by
  rw [parent_old (z.live_old (z.tree.parent_live _ _ hp).1)]; exact hp

theorem children_new {a : Nat} (ha : a ∈ nodes) : h.hier.children (μ a) = [] := by
  rw [List.eq_nil_iff_forall_not_mem]
  intro c hc
  have := (z.tree.parent_live _ _ ((z.tree.child_iff _ _).1 hc)).2
  rw [z.fresh a ha] at this; cases this

theorem map_nodup {cs : List Nat} (hcs : cs.Nodup) (hm : ∀ c ∈ cs, c ∈ nodes) : (cs.map μ).Nodup := by
  refine (List.nodup_map_iff_inj_on hcs).2 ?_
  intro a ha b hb e
  exact z.inj a (hm a ha) b (hm b hb) e

theorem live_mem {a : Nat} (ha : a ∈ nodes) : h.live a = true := by
  obtain ⟨q, hq, _⟩ := (z.mem a).1 ha
  exact (z.tree.parent_live _ _ hq).1

theorem root_not_mem : root ∉ nodes := fun hr => inside_irrefl z.tree root ((z.mem root).1 hr)

/-- Copying does what the specification says. -/
theorem copied {sub : Ops.Op → Option Ops.Op} {m : List (Nat × Nat)} (hout : np ∉ nodes) (hμ : μ = copyOf m)
    (hmn : m.map Prod.fst = nodes) (hnd : nodes.Nodup) (hsnd : (m.map Prod.snd).Nodup)
    (hm : ∀ a, (m.lookup a).isSome = true ↔ a ∈ nodes) (hmm : ∀ a ∈ nodes, (a, copyOf m a) ∈ m)
    (hmm' : ∀ e ∈ m, e.2 = copyOf m e.1)
    (hsub : ∀ a ∈ nodes, (sub (h.ops a)).isSome = true) (hd : ((h.descendants root).drop 1) = nodes)
    {news : List Nat} (hz : nodes.zip news = m) :
    ∃ g, copyDescendants sub h root np news = some g ∧ IsTree g ∧ Copied sub h root np nodes μ g := by
  have hm1 : ∀ e ∈ m, e.1 ∈ nodes := fun e he => hmn ▸ List.mem_map_of_mem he
  have hsnd' : ∀ n, n ∈ m.map Prod.snd ↔ ∃ a ∈ nodes, n = μ a := by
    intro n
    rw [List.mem_map]
    constructor
    · rintro ⟨e, he, rfl⟩
      exact ⟨e.1, hm1 e he, by rw [hμ]; exact hmm' e he⟩
    · rintro ⟨a, ha, rfl⟩
      exact ⟨_, hmm a ha, by rw [hμ]⟩
  have hfr : ∀ e ∈ m, h.live e.2 = false := by
    intro e he
    rw [hmm' e he, ← hμ]; exact z.fresh _ (hm1 e he)
  obtain ⟨g0, k1, k2, k3, k4, k5, k6, k7, k8, k9, k10, k11⟩ := add_list h hsnd hfr
  have hsort : ∀ x, x ∈ sortNodes nodes ↔ x ∈ nodes := fun x => (sortNodes_perm nodes).mem_iff
  have hsnd2 : (sortNodes nodes).Nodup := (sortNodes_perm nodes).nodup_iff.2 hnd
  -- the links
  let g1 : Hugr Ops.Op Meta := { g0 with
    links := h.links ++
      (h.links.filter fun l => (m.lookup l.src).isSome || (m.lookup l.dst).isSome).map
        (renameLink (copyOf m)) }
  have hg1 : copyInParent h m = some g1 := by unfold copyInParent; rw [k1]
  have g1hier : g1.hier = h.hier := k5
  have hlive : ∀ n, g1.live n = true ↔ h.live n = true ∨ ∃ a ∈ nodes, n = μ a := by
    intro n; rw [← hsnd' n]; exact k2 n
  have hlnew : ∀ a ∈ nodes, g1.live (μ a) = true := fun a ha => (hlive _).2 (.inr ⟨a, ha, rfl⟩)
  -- the children of the root
  have hroot : ∀ c ∈ h.hier.children root, c ∈ nodes := fun c hc => z.child_mem (.inr rfl) hc
  obtain ⟨g2, a1, a2, a3, a4⟩ := attach_list (m := m) (F := copyParent h root np nodes μ) z.acyclic (p := np)
    (cs := h.hier.children root) (g := g1) (by rw [g1hier]; exact z.sub)
    (fun c hc => (hm c).2 (hroot c hc))
    (fun c hc => by rw [g1hier, ← hμ]; exact z.new_no_parent (hroot c hc))
    (fun c hc => by rw [← hμ]; exact hlnew c (hroot c hc)) ((hlive np).2 (.inl z.liveP))
    (fun c hc => by
      have := z.parent_new (hroot c hc) ((z.tree.child_iff _ _).1 hc)
      rw [if_pos rfl] at this
      rw [← hμ]; exact this)
    (by rw [← hμ]; exact z.map_nodup (z.tree.child_once _) hroot)
  rw [← hμ] at a3 a4
  rw [g1hier] at a3 a4
  -- the rest of the hierarchy
  have hin : ∀ x ∈ nodes, ∀ c ∈ h.hier.children x, c ∈ nodes := fun x hx c hc => z.child_mem (.inl hx) hc
  have hxroot : ∀ x ∈ nodes, x ≠ root := fun x hx e => z.root_not_mem (e ▸ hx)
  have g2live : g2.live = g1.live := by rw [a2]
  obtain ⟨g3, b1, b2, b3, b4, b5⟩ := attach_rest (m := m) (F := copyParent h root np nodes μ) z.acyclic
    (ch := h.hier.children) (todo := sortNodes nodes) (g := g2)
    (by
      intro n q hq
      rw [a3] at hq
      by_cases hn : n ∈ (h.hier.children root).map μ
      · rw [if_pos hn] at hq; cases hq
        obtain ⟨c, hc, rfl⟩ := List.mem_map.1 hn
        have := z.parent_new (hroot c hc) ((z.tree.child_iff _ _).1 hc)
        rw [if_pos rfl] at this
        exact this
      · rw [if_neg hn] at hq; exact z.sub _ _ hq)
    (fun x hx => (hm x).2 ((hsort x).1 hx))
    (fun x hx => by
      rw [a4, if_neg]
      rintro rfl
      exact hout ((hsort _).1 hx))
    (fun x hx c hc => (hm c).2 (hin x ((hsort x).1 hx) c hc))
    (fun x hx c hc => by
      rw [← hμ, a3, if_neg]
      · exact z.new_no_parent (hin x ((hsort x).1 hx) c hc)
      · rw [List.mem_map]
        rintro ⟨c', hc', e⟩
        have := z.inj _ (hroot c' hc') _ (hin x ((hsort x).1 hx) c hc) e
        subst this
        have e1 := (z.tree.child_iff _ _).1 hc
        rw [(z.tree.child_iff _ _).1 hc'] at e1
        exact hxroot x ((hsort x).1 hx) (Option.some.inj e1).symm)
    (fun x hx c hc => by rw [← hμ, g2live]; exact hlnew c (hin x ((hsort x).1 hx) c hc))
    (fun x hx => by rw [← hμ, g2live]; exact hlnew x ((hsort x).1 hx))
    (fun x hx c hc => by
      have := z.parent_new (hin x ((hsort x).1 hx) c hc) ((z.tree.child_iff _ _).1 hc)
      rw [if_neg (hxroot x ((hsort x).1 hx))] at this
      rw [← hμ]; exact this)
    (fun x hx => by rw [← hμ]; exact z.map_nodup (z.tree.child_once _) (hin x ((hsort x).1 hx)))
    (by rw [← hμ]; exact z.map_nodup hsnd2 (fun c hc => (hsort c).1 hc))
    (by
      intro x hx y hy
      rw [← hμ]
      exact z.live_old (z.live_mem ((hsort x).1 hx)) y ((hsort y).1 hy))
  rw [← hμ] at b3 b4 b5
  have hops3 : g3.ops = g1.ops := by rw [b2, a2]
  have hops1 : ∀ n, (∀ a ∈ nodes, n ≠ μ a) → g1.ops n = h.ops n ∧ g1.ins n = h.ins n ∧ g1.outs n = h.outs n := by
    intro n hn
    have hn' : n ∉ m.map Prod.snd := by
      rw [hsnd']; rintro ⟨a, ha, e⟩; exact hn a ha e
    obtain ⟨i, o, p⟩ := k4 n hn'
    exact ⟨p, i, o⟩
  have hopsm : ∀ a ∈ nodes, g3.ops a = h.ops a := by
    intro a ha
    rw [hops3]; exact (hops1 a (z.live_old (z.live_mem ha))).1
  -- the operations
  obtain ⟨g, w1, w2, w3, w4⟩ := weight_list (sub := sub) (m := m) (todo := sortNodes nodes) (g := g3)
    (fun x hx => (hm x).2 ((hsort x).1 hx))
    (fun x hx => by rw [hopsm x ((hsort x).1 hx)]; exact hsub x ((hsort x).1 hx))
    (by
      intro x hx y hy
      rw [← hμ]
      exact z.live_old (z.live_mem ((hsort x).1 hx)) y ((hsort y).1 hy))
    (by rw [← hμ]; exact z.map_nodup hsnd2 (fun c hc => (hsort c).1 hc))
  rw [← hμ] at w3 w4
  have ghier : g.hier = g3.hier := by rw [w2]
  have glive : g.live = g1.live := by rw [w2]; show g3.live = _; rw [b2]; exact g2live
  have gins : g.ins = g1.ins := by rw [w2]; show g3.ins = _; rw [b2, a2]
  have gouts : g.outs = g1.outs := by rw [w2]; show g3.outs = _; rw [b2, a2]
  have glinks : g.links = g1.links := by rw [w2]; show g3.links = _; rw [b2, a2]
  have groot : g.moduleRoot = h.moduleRoot := by rw [w2]; show g3.moduleRoot = _; rw [b2, a2]; exact k8
  have gentry : g.entrypoint = h.entrypoint := by rw [w2]; show g3.entrypoint = _; rw [b2, a2]; exact k9
  have gcap : g.cap = g0.cap := by rw [w2]; show g3.cap = _; rw [b2, a2]
  have g3meta : g3.metadata = h.metadata := by rw [b2, a2]; exact k7
  have hkids : ∀ a ∈ nodes, g.hier.children (μ a) = (h.hier.children a).map μ := by
    intro a ha
    rw [ghier, b4 a ((hsort a).2 ha), a4, if_neg, z.children_new ha, List.nil_append]
    intro e
    exact z.live_old z.liveP a ha e.symm
  have hkido : ∀ n, (∀ a ∈ nodes, n ≠ μ a) → g.hier.children n = g2.hier.children n := by
    intro n hn
    rw [ghier]
    apply b5
    rw [List.mem_map]
    rintro ⟨a, ha, rfl⟩
    exact hn a ((hsort a).1 ha) rfl
  have hpar : ∀ n, g.hier.parent n = copyParent h root np nodes μ n := by
    intro n
    rw [ghier]
    by_cases hn : ∃ a ∈ nodes, n = μ a
    · obtain ⟨a, ha, rfl⟩ := hn
      obtain ⟨q, hq, hor⟩ := z.parent_some ha
      rw [z.parent_new ha hq, b3, a3]
      by_cases e : q = root
      · rw [if_pos e]; subst e
        left
        rw [if_pos (List.mem_map_of_mem ((z.tree.child_iff _ _).2 hq))]
      · rw [if_neg e]
        right
        exact ⟨q, (hsort q).2 (hor.resolve_left e), a, (z.tree.child_iff _ _).2 hq, rfl, rfl⟩
    · have hn : ∀ a ∈ nodes, n ≠ μ a := fun a ha e => hn ⟨a, ha, e⟩
      rw [parent_old hn]
      apply Option.ext
      intro q
      rw [b3, a3, if_neg]
      · constructor
        · rintro (hq | ⟨x, hx, c, hc, e, _⟩)
          · exact hq
          · exact absurd e (hn c (hin x ((hsort x).1 hx) c hc))
        · exact .inl
      · rw [List.mem_map]
        rintro ⟨c, hc, rfl⟩
        exact hn c (hroot c hc) rfl
  have hco : Copied sub h root np nodes μ g := by
    refine ⟨z.mem, z.keep, z.fresh, z.inj, ?_, ?_, ?_, ?_, ?_, ?_, groot, gentry⟩
    · intro n; rw [glive]; exact hlive n
    · intro n hn
      have hn' : n ∉ (sortNodes nodes).map μ := by
        rw [List.mem_map]
        rintro ⟨a, ha, rfl⟩
        exact hn a ((hsort a).1 ha) rfl
      obtain ⟨i, j⟩ := w4 n hn'
      obtain ⟨o1, o2, o3⟩ := hops1 n hn
      refine ⟨by rw [i, hops3, o1], by rw [gins, o2], by rw [gouts, o3], by rw [j, g3meta], ?_, ?_⟩
      · rw [hpar, parent_old hn]
      · intro hne
        change g.hier.children n = h.hier.children n
        rw [hkido n hn, a4, if_neg hne]
    · intro a ha
      obtain ⟨i, j⟩ := w3 a ((hsort a).2 ha)
      rw [hopsm a ha] at i
      have k := k3 _ (hmm a ha)
      rw [← hμ] at k
      refine ⟨i, by rw [gins]; exact k.1, by rw [gouts]; exact k.2, by rw [j, g3meta], hkids a ha⟩
    · intro a ha q hq
      rw [hpar, z.parent_new ha hq]
    · change g.hier.children np = h.hier.children np ++ (h.hier.children root).map μ
      rw [hkido np (z.live_old z.liveP), a4, if_pos rfl]
    · rw [glinks]
      change h.links ++ (h.links.filter fun l => (m.lookup l.src).isSome || (m.lookup l.dst).isSome).map
        (renameLink (copyOf m)) = _
      rw [hμ]
      congr 2
      apply List.filter_congr
      intro l _
      have e : ∀ a, (m.lookup a).isSome = decide (a ∈ nodes) := by
        intro a
        rw [Bool.eq_iff_iff, decide_eq_true_eq]; exact hm a
      rw [e, e]
  refine ⟨g, ?_, ?_, hco⟩
  · unfold copyDescendants
    simp only [hd, hz, hmn]
    rw [hg1]
    simp only []
    rw [show g1.children root = h.hier.children root from by change g1.hier.children root = _; rw [g1hier], a1]
    simp only [b1]
    exact w1
  · have hpf : g.hier.parent = copyParent h root np nodes μ := funext hpar
    have habove : ∀ n, h.live n = true → Above g.hier.parent n h.moduleRoot := by
      intro n hn
      rw [hpf]
      exact (z.tree.reaches_root n hn).mono z.sub
    refine ⟨?_, ?_, ?_, ?_, ?_, ?_, ?_, ?_, ?_⟩
    · rw [groot, glive, hlive]; exact .inl z.tree.root_live
    · rw [gentry, glive, hlive]; exact .inl z.tree.entry_live
    · rw [groot, hpar, parent_old (z.live_old z.tree.root_live)]; exact z.tree.root_top
    · intro n hn hne
      rw [glive, hlive] at hn
      rw [hpar]
      rcases hn with hn | ⟨a, ha, rfl⟩
      · rw [parent_old (z.live_old hn)]
        exact z.tree.has_parent n hn (groot ▸ hne)
      · obtain ⟨q, hq, _⟩ := z.parent_some ha
        exact ⟨_, z.parent_new ha hq⟩
    · intro n p hp
      rw [hpar] at hp
      rw [glive, hlive, hlive]
      by_cases hn : ∃ a ∈ nodes, n = μ a
      · obtain ⟨a, ha, rfl⟩ := hn
        obtain ⟨q, hq, hor⟩ := z.parent_some ha
        rw [z.parent_new ha hq] at hp
        refine ⟨.inr ⟨a, ha, rfl⟩, ?_⟩
        by_cases e : q = root
        · rw [if_pos e] at hp; cases hp; exact .inl z.liveP
        · rw [if_neg e] at hp; cases hp
          exact .inr ⟨q, hor.resolve_left e, rfl⟩
      · have hn : ∀ a ∈ nodes, n ≠ μ a := fun a ha e => hn ⟨a, ha, e⟩
        rw [parent_old hn] at hp
        obtain ⟨x, y⟩ := z.tree.parent_live _ _ hp
        exact ⟨.inl x, .inl y⟩
    · intro p n
      by_cases hp : ∃ a ∈ nodes, p = μ a
      · obtain ⟨a, ha, rfl⟩ := hp
        rw [hkids a ha, List.mem_map, hpar]
        constructor
        · rintro ⟨c, hc, rfl⟩
          have := z.parent_new (hin a ha c hc) ((z.tree.child_iff _ _).1 hc)
          rw [if_neg (hxroot a ha)] at this
          exact this
        · intro hp
          by_cases hn : ∃ c ∈ nodes, n = μ c
          · obtain ⟨c, hc, rfl⟩ := hn
            obtain ⟨q, hq, hor⟩ := z.parent_some hc
            rw [z.parent_new hc hq] at hp
            by_cases e : q = root
            · rw [if_pos e] at hp
              exact absurd (Option.some.inj hp) (z.live_old z.liveP a ha)
            · rw [if_neg e] at hp
              have := z.inj _ (hor.resolve_left e) _ ha (Option.some.inj hp)
              subst this
              exact ⟨c, (z.tree.child_iff _ _).2 hq, rfl⟩
          · have hn : ∀ a ∈ nodes, n ≠ μ a := fun a ha e => hn ⟨a, ha, e⟩
            rw [parent_old hn] at hp
            have := (z.tree.parent_live _ _ hp).2
            rw [z.fresh a ha] at this; cases this
      · have hp' : ∀ a ∈ nodes, p ≠ μ a := fun a ha e => hp ⟨a, ha, e⟩
        rw [hkido p hp', a4, hpar]
        have key : copyParent h root np nodes μ n = some p ↔
            h.hier.parent n = some p ∨ (p = np ∧ n ∈ (h.hier.children root).map μ) := by
          by_cases hn : ∃ c ∈ nodes, n = μ c
          · obtain ⟨c, hc, rfl⟩ := hn
            obtain ⟨q, hq, hor⟩ := z.parent_some hc
            rw [z.parent_new hc hq, z.new_no_parent hc]
            by_cases e : q = root
            · rw [if_pos e]; subst e
              constructor
              · intro e; cases e
                exact .inr ⟨rfl, List.mem_map_of_mem ((z.tree.child_iff _ _).2 hq)⟩
              · rintro (h1 | h1)
                · cases h1
                · rw [h1.1]
            · rw [if_neg e]
              constructor
              · intro e'
                exact absurd (Option.some.inj e').symm (hp' q (hor.resolve_left e))
              · rintro (h1 | ⟨_, h1⟩)
                · cases h1
                · obtain ⟨c', hc', e'⟩ := List.mem_map.1 h1
                  have := z.inj _ (hroot c' hc') _ hc e'
                  subst this
                  rw [(z.tree.child_iff _ _).1 hc'] at hq
                  exact absurd (Option.some.inj hq).symm e
          · have hn : ∀ a ∈ nodes, n ≠ μ a := fun a ha e => hn ⟨a, ha, e⟩
            rw [parent_old hn]
            constructor
            · exact .inl
            · rintro (h1 | ⟨_, h1⟩)
              · exact h1
              · obtain ⟨c', hc', e'⟩ := List.mem_map.1 h1
                exact absurd e'.symm (hn c' (hroot c' hc'))
        rw [key]
        by_cases e : p = np
        · subst e
          rw [if_pos rfl, List.mem_append, z.tree.child_iff]
          simp
        · rw [if_neg e, z.tree.child_iff]
          simp [e]
    · intro p
      by_cases hp : ∃ a ∈ nodes, p = μ a
      · obtain ⟨a, ha, rfl⟩ := hp
        rw [hkids a ha]
        exact z.map_nodup (z.tree.child_once _) (hin a ha)
      · have hp' : ∀ a ∈ nodes, p ≠ μ a := fun a ha e => hp ⟨a, ha, e⟩
        rw [hkido p hp', a4]
        by_cases e : p = np
        · subst e
          rw [if_pos rfl]
          refine List.Nodup.append (z.tree.child_once _) (z.map_nodup (z.tree.child_once _) hroot) ?_
          intro x hx hx'
          obtain ⟨c, hc, rfl⟩ := List.mem_map.1 hx'
          exact z.live_old (z.tree.parent_live _ _ ((z.tree.child_iff _ _).1 hx)).1 c (hroot c hc) rfl
        · rw [if_neg e]; exact z.tree.child_once _
    · intro n hn
      rw [glive, hlive] at hn
      rw [groot]
      rcases hn with hn | ⟨a, ha, rfl⟩
      · exact habove n hn
      · obtain ⟨q, hq, hqr⟩ := (z.mem a).1 ha
        have key : ∀ x, Above h.hier.parent x root → ∀ b ∈ nodes, h.hier.parent b = some x →
            Above g.hier.parent (μ b) h.moduleRoot := by
          intro x hx
          generalize hr : root = r at hx
          induction hx with
          | refl n =>
            intro b hb hbx
            subst hr
            have := z.parent_new hb hbx
            rw [if_pos rfl, ← hpar] at this
            exact .step this (habove np z.liveP)
          | @step n p m' hp _ ih =>
            intro b hb hbx
            by_cases e : n = root
            · subst e
              have := z.parent_new hb hbx
              rw [if_pos rfl, ← hpar] at this
              exact .step this (habove np z.liveP)
            · have h1 := z.parent_new hb hbx
              rw [if_neg e, ← hpar] at h1
              obtain ⟨q', hq', hor⟩ := z.parent_some hb
              rw [hbx] at hq'
              cases hq'
              exact .step h1 (ih hr n (hor.resolve_left e) hp)
        exact key q hqr a ha hq
    · intro n hn
      rw [glive, hlive] at hn
      rw [gcap]
      rcases hn with hn | ⟨a, ha, rfl⟩
      · exact lt_of_lt_of_le (z.tree.in_range n hn) k10
      · have := k11 _ (hmm a ha)
        rw [hμ]; exact this

end Copying

/-- How copying is set up. -/
theorem copying_of {h : Hugr Ops.Op Meta} {root np : Nat} {news : List Nat} (ht : IsTree h)
    (hr : h.live root = true) (hp : h.live np = true) (hnd : news.Nodup)
    (hf : ∀ n ∈ news, h.live n = false) (hl : ((h.descendants root).drop 1).length = news.length) :
    Copying h root np ((h.descendants root).drop 1) (copyOf (((h.descendants root).drop 1).zip news)) ∧
    ((h.descendants root).drop 1).Nodup ∧
    ∀ e ∈ ((h.descendants root).drop 1).zip news, e.2 = copyOf (((h.descendants root).drop 1).zip news) e.1 := by
  have he := descendants_enumerates ht hr
  generalize hn : (h.descendants root).drop 1 = nodes at *
  have hd : h.descendants root = root :: nodes := by
    cases hc : h.descendants root with
    | nil => have := he.head; rw [hc] at this; simp at this
    | cons x xs =>
      have := he.head
      rw [hc] at this hn
      simp only [List.head?_cons, Option.some.injEq] at this
      simp only [List.drop_succ_cons, List.drop_zero] at hn
      rw [this, hn]
  have hnd' := he.nodup
  rw [hd, List.nodup_cons] at hnd'
  have hmem : ∀ n, n ∈ nodes ↔ Inside h root n := by
    intro n
    have := he.mem n
    rw [hd, List.mem_cons] at this
    constructor
    · intro hx
      rcases Dataflow.above_cases (this.1 (.inr hx)) with e | ⟨q, hq, hqr⟩
      · exact absurd (e ▸ hx) hnd'.1
      · exact ⟨q, hq, hqr⟩
    · rintro ⟨q, hq, hqr⟩
      refine (this.2 (.step hq hqr)).resolve_left ?_
      rintro rfl
      exact ht.acyclic _ _ hq hqr
  have hinj : ∀ a ∈ nodes, ∀ b ∈ nodes, copyOf (nodes.zip news) a = copyOf (nodes.zip news) b → a = b := by
    intro a ha b hb e
    have h1 := copy_mem hl ha
    have h2 := copy_mem hl hb
    rw [e] at h1
    exact zip_snd_inj hnd h1 h2
  have z : Copying h root np nodes (copyOf (nodes.zip news)) := by
    refine ⟨ht, hr, hp, hmem, ?_, ?_, hinj⟩
    · intro n hx
      unfold copyOf
      cases hc : (nodes.zip news).lookup n with
      | none => rfl
      | some x =>
        have := (lookup_zip (a := n) hl).1 (by rw [hc]; rfl)
        exact absurd this hx
    · intro n hx
      exact hf _ (List.of_mem_zip (copy_mem hl hx)).2
  refine ⟨z, hnd'.2, ?_⟩
  intro e hx
  obtain ⟨a, b⟩ := e
  have h1 := copy_mem hl (List.of_mem_zip hx).1
  -- keys are distinct
  clear * - h1 hx hnd' hl
  have key : ∀ {xs ys : List Nat} {a b c : Nat}, xs.Nodup → (a, b) ∈ xs.zip ys → (a, c) ∈ xs.zip ys → b = c := by
    intro xs
    induction xs with
    | nil => intro ys a b c _ h; simp at h
    | cons x xs ih =>
      intro ys a b c hx h1 h2
      cases ys with
      | nil => simp at h1
      | cons y ys =>
        rw [List.nodup_cons] at hx
        rw [List.zip_cons_cons, List.mem_cons] at h1 h2
        rcases h1 with h1 | h1 <;> rcases h2 with h2 | h2
        · cases h1; cases h2; rfl
        · cases h1; exact absurd (List.of_mem_zip h2).1 hx.1
        · cases h2; exact absurd (List.of_mem_zip h1).1 hx.1
        · exact ih hx.2 h1 h2
  exact key hnd'.2 hx h1

/-- `copy_descendants` copies what is inside a node. -/
theorem copyDescendants_copied {sub : Ops.Op → Option Ops.Op} {h : Hugr Ops.Op Meta} {root np : Nat}
    {news : List Nat} (ht : IsTree h) (hr : h.live root = true) (hp : h.live np = true)
    (ho : ¬ Inside h root np) (hnd : news.Nodup) (hf : ∀ n ∈ news, h.live n = false)
    (hl : ((h.descendants root).drop 1).length = news.length)
    (hsub : ∀ a, Inside h root a → (sub (h.ops a)).isSome = true) :
    ∃ g, copyDescendants sub h root np news = some g ∧ IsTree g ∧
      Copied sub h root np ((h.descendants root).drop 1)
        (copyOf (((h.descendants root).drop 1).zip news)) g := by
  obtain ⟨z, hnn, hval⟩ := copying_of ht hr hp hnd hf hl
  exact z.copied (fun h1 => ho ((z.mem np).1 h1)) rfl (List.map_fst_zip (le_of_eq hl)) hnn
    (by rw [List.map_snd_zip (le_of_eq hl.symm)]; exact hnd)
    (fun a => lookup_zip hl) (fun a ha => copy_mem hl ha) hval (fun a ha => hsub a ((z.mem a).1 ha)) rfl rfl

theorem each_split {G α : Type} (f : G → α → Option G) (g : G) (xs ys : List α) :
    each f g (xs ++ ys) = (each f g xs).bind fun g' => each f g' ys := by
  induction xs generalizing g with
  | nil => rfl
  | cons x xs ih =>
    simp only [List.cons_append, each]
    cases f g x with
    | none => rfl
    | some g' => exact ih g'

theorem each_none {G α : Type} {f : G → α → Option G} {x : α} (hx : ∀ g, f g x = none) {xs : List α} {g : G}
    (hm : x ∈ xs) : each f g xs = none := by
  induction xs generalizing g with
  | nil => simp at hm
  | cons y ys ih =>
    simp only [each]
    cases hy : f g y with
    | none => rfl
    | some g' =>
      rcases List.mem_cons.1 hm with e | hm
      · rw [← e, hx] at hy; cases hy
      · exact ih hm

/-- Copies of what is inside a node cannot be put inside that node. -/
theorem copyDescendants_panic {sub : Ops.Op → Option Ops.Op} {h : Hugr Ops.Op Meta} {root np : Nat}
    {news : List Nat} (ht : IsTree h) (hr : h.live root = true)
    (hi : Inside h root np) (hnd : news.Nodup) (hf : ∀ n ∈ news, h.live n = false)
    (hl : ((h.descendants root).drop 1).length = news.length) :
    copyDescendants sub h root np news = none := by
  have hp : h.live np = true := by
    obtain ⟨q, hq, _⟩ := hi
    exact (ht.parent_live _ _ hq).1
  obtain ⟨z, hnn, hmm'⟩ := copying_of (np := np) ht hr hp hnd hf hl
  unfold copyDescendants
  simp only [List.map_fst_zip (le_of_eq hl)]
  have hm : ∀ a, (_ : Bool) = true ↔ a ∈ _ := fun a => lookup_zip (a := a) hl
  have hmm : ∀ a ∈ _, _ := fun a ha => copy_mem (a := a) hl ha
  have hsndl := List.map_snd_zip (le_of_eq hl.symm)
  have hm1 : ∀ e ∈ ((h.descendants root).drop 1).zip news, e.1 ∈ (h.descendants root).drop 1 :=
    fun e he => (List.of_mem_zip he).1
  generalize hμ : copyOf (((h.descendants root).drop 1).zip news) = μ at *
  generalize hmz : ((h.descendants root).drop 1).zip news = m at *
  generalize (h.descendants root).drop 1 = nodes at *
  have hfr : ∀ e ∈ m, h.live e.2 = false := by
    intro e he
    rw [hmm' e he]; exact z.fresh _ (hm1 e he)
  obtain ⟨g0, k1, k2, -, -, k5, -⟩ := add_list h (by rw [hsndl]; exact hnd) hfr
  let g1 : Hugr Ops.Op Meta := { g0 with
    links := h.links ++
      (h.links.filter fun l => (m.lookup l.src).isSome || (m.lookup l.dst).isSome).map
        (renameLink (copyOf m)) }
  have hg1 : copyInParent h m = some g1 := by unfold copyInParent; rw [k1]
  have g1hier : g1.hier = h.hier := k5
  have hlnew : ∀ a ∈ nodes, g1.live (μ a) = true := by
    intro a ha
    have : (a, μ a) ∈ m := hμ ▸ hmm a ha
    exact (k2 _).2 (.inr (List.mem_map_of_mem (f := Prod.snd) this))
  have hroot : ∀ c ∈ h.hier.children root, c ∈ nodes := fun c hc => z.child_mem (.inr rfl) hc
  have hrootp : ∀ c ∈ h.hier.children root, copyParent h root np nodes μ (μ c) = some np := by
    intro c hc
    have := z.parent_new (hroot c hc) ((z.tree.child_iff _ _).1 hc)
    rwa [if_pos rfl] at this
  obtain ⟨g2, a1, a2, a3, a4⟩ := attach_list (m := m) (F := copyParent h root np nodes μ) z.acyclic (p := np)
    (cs := h.hier.children root) (g := g1) (by rw [g1hier]; exact z.sub)
    (fun c hc => (hm c).2 (hroot c hc))
    (fun c hc => by rw [g1hier, hμ]; exact z.new_no_parent (hroot c hc))
    (fun c hc => by rw [hμ]; exact hlnew c (hroot c hc)) ((k2 np).2 (.inl z.liveP))
    (fun c hc => by rw [hμ]; exact hrootp c hc)
    (by rw [hμ]; exact z.map_nodup (z.tree.child_once _) hroot)
  rw [hμ] at a3 a4
  rw [g1hier] at a3 a4
  rw [hg1]
  simp only []
  rw [show g1.children root = h.hier.children root from by change g1.hier.children root = _; rw [g1hier], a1]
  simp only []
  have hsort : ∀ x, x ∈ sortNodes nodes ↔ x ∈ nodes := fun x => (sortNodes_perm nodes).mem_iff
  have hsnd2 : (sortNodes nodes).Nodup := (sortNodes_perm nodes).nodup_iff.2 hnn
  obtain ⟨pre, post, hsp⟩ := List.append_of_mem ((hsort np).2 ((z.mem np).2 hi))
  rw [hsp] at hsnd2
  have hpre : ∀ x ∈ pre, x ∈ nodes ∧ x ≠ np := by
    intro x hx
    refine ⟨(hsort x).1 (hsp ▸ List.mem_append_left _ hx), ?_⟩
    rintro rfl
    exact (List.nodup_append.1 hsnd2).2.2 x hx x (by simp) rfl
  have hin : ∀ x ∈ nodes, ∀ c ∈ h.hier.children x, c ∈ nodes := fun x hx c hc => z.child_mem (.inl hx) hc
  have hxroot : ∀ x ∈ nodes, x ≠ root := fun x hx e => z.root_not_mem (e ▸ hx)
  have g2live : g2.live = g1.live := by rw [a2]
  obtain ⟨g3, b1, b2, b3, b4, b5⟩ := attach_rest (m := m) (F := copyParent h root np nodes μ) z.acyclic
    (ch := h.hier.children) (todo := pre) (g := g2)
    (by
      intro n q hq
      rw [a3] at hq
      by_cases hn : n ∈ (h.hier.children root).map μ
      · rw [if_pos hn] at hq; cases hq
        obtain ⟨c, hc, rfl⟩ := List.mem_map.1 hn
        exact hrootp c hc
      · rw [if_neg hn] at hq; exact z.sub _ _ hq)
    (fun x hx => (hm x).2 (hpre x hx).1)
    (fun x hx => by rw [a4, if_neg (hpre x hx).2])
    (fun x hx c hc => (hm c).2 (hin x (hpre x hx).1 c hc))
    (fun x hx c hc => by
      rw [hμ, a3, if_neg]
      · exact z.new_no_parent (hin x (hpre x hx).1 c hc)
      · rw [List.mem_map]
        rintro ⟨c', hc', e⟩
        have := z.inj _ (hroot c' hc') _ (hin x (hpre x hx).1 c hc) e
        subst this
        have e1 := (z.tree.child_iff _ _).1 hc
        rw [(z.tree.child_iff _ _).1 hc'] at e1
        exact hxroot x (hpre x hx).1 (Option.some.inj e1).symm)
    (fun x hx c hc => by rw [hμ, g2live]; exact hlnew c (hin x (hpre x hx).1 c hc))
    (fun x hx => by rw [hμ, g2live]; exact hlnew x (hpre x hx).1)
    (fun x hx c hc => by
      have := z.parent_new (hin x (hpre x hx).1 c hc) ((z.tree.child_iff _ _).1 hc)
      rw [if_neg (hxroot x (hpre x hx).1)] at this
      rw [hμ]; exact this)
    (fun x hx => by rw [hμ]; exact z.map_nodup (z.tree.child_once _) (hin x (hpre x hx).1))
    (by rw [hμ]; exact z.map_nodup (List.nodup_append.1 hsnd2).1 (fun c hc => (hpre c hc).1))
    (by
      intro x hx y hy
      rw [hμ]
      exact z.live_old (z.live_mem (hpre x hx).1) y (hpre y hy).1)
  rw [hμ] at b5
  -- a copy of a child of the root is now a child of `np`
  have hkid : ∃ c, c ∈ h.hier.children root := by
    obtain ⟨q, hq, hqr⟩ := hi
    clear * - hq hqr ht
    induction hqr generalizing np with
    | refl => exact ⟨np, (ht.child_iff _ _).2 hq⟩
    | step hp _ ih => exact ih hp
  obtain ⟨c, hc⟩ := hkid
  have hnp : g3.hier.children np = h.hier.children np ++ (h.hier.children root).map μ := by
    rw [b5, a4, if_pos rfl]
    rw [List.mem_map]
    rintro ⟨a, ha, e⟩
    exact z.live_old z.liveP a (hpre a ha).1 e.symm
  have hbad : m.lookup (μ c) = none := by
    cases hx : m.lookup (μ c) with
    | none => rfl
    | some y =>
      have := z.live_mem ((hm (μ c)).1 (by rw [hx]; rfl))
      rw [z.fresh c (hroot c hc)] at this; cases this
  have hstep : attachBelow m g3 np = none := by
    unfold attachBelow
    cases m.lookup np with
    | none => rfl
    | some y =>
      simp only []
      unfold attachCopies
      refine each_none (x := μ c) ?_ ?_
      · intro g; simp only [hbad]
      · change μ c ∈ g3.hier.children np
        rw [hnp]
        exact List.mem_append_right _ (List.mem_map_of_mem hc)
  rw [hsp, each_split, b1]
  simp only [Option.bind_some, each, hstep]

end Verif.Patch
