import Verif.Builder.Lemmas
import Verif.Patch.InlineDfgValid

/-!
# Wires between graphs

What `wire_up` does to a wire that leaves the graph of its source.
-/
namespace Verif.Builder

open Verif.Graph Verif.Ops Verif.Validate Verif.Dataflow Verif.Patch

variable {Meta : Type} {h : Hugr Ops.Op Meta}

/-! ## The way up -/

theorem live_above (ht : IsTree h) {a b : Nat} (hab : Above h.hier.parent a b) (ha : h.live a = true) :
    h.live b = true := by
  induction hab with
  | refl => exact ha
  | step hp _ ih => exact ih (ht.parent_live _ _ hp).2

theorem ancestors_chain (ht : IsTree h) : ∀ (l : List Nat) (x fuel : Nat),
    (x :: l).IsChain (fun a b => h.hier.parent a = some b) → (∀ y, (x :: l).getLast? = some y → h.hier.parent y = none) →
    l.length < fuel → ancestors h fuel (some x) = x :: l
  | [], x, fuel + 1, _, hn, _ => by
    have : h.getParent x = none := by rw [Validate.getParent_eq ht]; exact hn x rfl
    simp only [ancestors, this]
    cases fuel <;> rfl
  | y :: l, x, fuel + 1, hc, hn, hf => by
    rw [List.isChain_cons_cons] at hc
    have : h.getParent x = some y := by rw [Validate.getParent_eq ht]; exact hc.1
    simp only [ancestors, this]
    rw [ancestors_chain ht l y fuel hc.2 (by simpa using hn) (by simpa using hf)]
  | _, _, 0, _, _, hf => by omega

/-- The nodes above `q`, in turn. -/
theorem ancestors_ok (ht : IsTree h) {q : Nat} (hq : h.live q = true) : ∃ l : List Nat,
    ancestors h (h.cap + 1) (some q) = l ∧ l.IsChain (fun a b => h.hier.parent a = some b) ∧ l.head? = some q ∧
    ∀ x, x ∈ l ↔ Above h.hier.parent q x := by
  obtain ⟨l, hc, hh, hlast, hab⟩ := (ht.reaches_root q hq).chain
  match l, hh with
  | x :: l, hh =>
    cases hh
    have hnd := chain_nodup ht.acyclic _ hc
    have hsub : (q :: l).length ≤ h.cap := by
      have hs : (q :: l) ⊆ List.range h.cap := by
        intro y hy
        rw [List.mem_range]
        exact ht.in_range _ (live_above ht (hab y hy).1 hq)
      simpa using (List.subperm_of_subset hnd hs).length_le
    refine ⟨q :: l, ancestors_chain ht l q _ hc ?_ ?_, hc, rfl, ?_⟩
    · intro y hy
      rw [hlast] at hy; cases hy
      exact ht.root_top
    · simp only [List.length_cons] at hsub; omega
    · intro x
      refine ⟨fun hx => (hab x hx).1, fun hx => ?_⟩
      have key : ∀ (l : List Nat) (q : Nat), (q :: l).IsChain (fun a b => h.hier.parent a = some b) →
          (q :: l).getLast? = some h.moduleRoot → Above h.hier.parent q x → x ∈ q :: l := by
        intro l
        induction l with
        | nil =>
          intro q _ hr ha
          cases hr
          cases ha.eq_of_top ht.root_top
          exact List.mem_cons_self
        | cons y l ih =>
          intro q hc hr ha
          rw [List.isChain_cons_cons] at hc
          cases ha with
          | refl => exact List.mem_cons_self
          | step hp ha =>
            rw [hc.1] at hp; cases hp
            exact List.mem_cons_of_mem _ (ih y hc.2 (by simpa using hr) ha)
      exact key l q hc hlast hx

theorem findWindow_none {f : Nat → Bool} : ∀ (l : List Nat), (∀ x ∈ l.tail, f x = false) → findWindow f l = none
  | [], _ => rfl
  | [_], _ => rfl
  | a :: b :: l, hf => by
    simp only [findWindow]
    rw [if_neg (by simp [hf b (by simp)])]
    exact findWindow_none (b :: l) fun x hx => hf x (by simp at hx ⊢; exact .inr hx)

theorem findWindow_some {f : Nat → Bool} {a b : Nat} {l2 : List Nat} (hb : f b = true) : ∀ (l1 : List Nat),
    (∀ x ∈ l1 ++ [a], f x = false) → findWindow f (l1 ++ a :: b :: l2) = some a
  | [], _ => by simp [findWindow, hb]
  | [x], hf => by
    simp only [List.singleton_append, findWindow]
    rw [if_neg (by simp [hf a (by simp)]), if_pos hb]
  | x :: y :: l1, hf => by
    simp only [List.cons_append, findWindow]
    rw [if_neg (by simp [hf y (by simp)])]
    exact findWindow_some hb (y :: l1) fun z hz => hf z (by simp at hz ⊢; exact .inr hz)

/-- In a chain, what comes after `a` is its parent, and what comes before is below it. -/
theorem chain_split {parent : Nat → Option Nat} {a b : Nat} (hb : parent a = some b) : ∀ (l : List Nat),
    l.IsChain (fun x y => parent x = some y) → a ∈ l → b ∈ l → Acyclic parent →
    ∃ l1 l2, l = l1 ++ a :: b :: l2 ∧ ∀ x ∈ l1 ++ [a], Above parent x a
  | [], _, ha, _, _ => by cases ha
  | [x], _, ha, hb', hac => by
    simp only [List.mem_singleton] at ha hb'
    subst ha
    exact absurd (hb' ▸ .refl _) (hac _ _ hb)
  | x :: y :: l, hc, ha, hb', hac => by
    rw [List.isChain_cons_cons] at hc
    rcases List.mem_cons.1 ha with rfl | ha'
    · rw [hc.1] at hb; cases hb
      exact ⟨[], l, rfl, by simp [Above.refl]⟩
    · have hb'' : b ∈ y :: l := by
        rcases List.mem_cons.1 hb' with rfl | h1
        · have : ∀ (l : List Nat) (y : Nat), (y :: l).IsChain (fun x y => parent x = some y) → a ∈ y :: l →
              Above parent y a := by
            intro l
            induction l with
            | nil => intro y _ h2; simp at h2; subst h2; exact .refl _
            | cons z l ih =>
              intro y h1 h2
              rw [List.isChain_cons_cons] at h1
              rcases List.mem_cons.1 h2 with rfl | h2
              · exact .refl _
              · exact .step h1.1 (ih z h1.2 h2)
          exact absurd (.step hc.1 (this l y hc.2 ha')) (hac _ _ hb)
        · exact h1
      obtain ⟨l1, l2, he, hx⟩ := chain_split hb (y :: l) hc.2 ha' hb'' hac
      refine ⟨x :: l1, l2, by rw [he]; rfl, ?_⟩
      intro z hz
      rcases List.mem_cons.1 hz with rfl | hz
      · refine .step hc.1 ?_
        have : (l1 ++ a :: b :: l2).head? = some y := by rw [← he]; rfl
        cases l1 with
        | nil => simp at this; subst this; exact .refl _
        | cons w l1 => simp at this; subst this; exact hx w (by simp)
      · exact hx z hz

/-! ## The ancestor that is found -/

/-- The target is inside a sibling of the source. -/
theorem srcSibling_sibling (ht : IsTree h) {s d p q a : Nat} (hp : h.hier.parent s = some p)
    (hq : h.hier.parent d = some q) (ha : Above h.hier.parent q a) (hap : h.hier.parent a = some p) :
    srcSibling h s d = some a := by
  have hql := (ht.parent_live _ _ hq).2
  obtain ⟨l, hl, hc, -, hm⟩ := ancestors_ok ht hql
  unfold srcSibling
  rw [Validate.getParent_eq ht d, hq, hl, Validate.getParent_eq ht s, hp]
  obtain ⟨l1, l2, rfl, hx⟩ := chain_split hap l hc ((hm a).2 ha) ((hm p).2 (ha.trans (.of_parent hap))) ht.acyclic
  apply findWindow_some (by simp)
  intro x hx'
  have hxa := hx x hx'
  simp only [Option.bind_some, Validate.getParent_eq ht]
  rw [Bool.or_eq_false_iff]
  constructor
  · simp only [beq_eq_false_iff_ne, ne_eq, Option.some.injEq]
    rintro rfl
    exact ht.acyclic _ _ hap hxa
  · simp only [beq_eq_false_iff_ne, ne_eq]
    intro hpx
    exact ht.acyclic _ _ hpx (hxa.trans (.of_parent hap))

/-- The target is inside a sibling of the parent of the source. -/
theorem srcSibling_uncle (ht : IsTree h) {s d p q a g : Nat} (hp : h.hier.parent s = some p)
    (hq : h.hier.parent d = some q) (ha : Above h.hier.parent q a) (hg : h.hier.parent p = some g)
    (hag : h.hier.parent a = some g) (hne : a ≠ p) : srcSibling h s d = some a := by
  have hql := (ht.parent_live _ _ hq).2
  obtain ⟨l, hl, hc, -, hm⟩ := ancestors_ok ht hql
  unfold srcSibling
  rw [Validate.getParent_eq ht d, hq, hl, Validate.getParent_eq ht s, hp]
  obtain ⟨l1, l2, rfl, hx⟩ := chain_split hag l hc ((hm a).2 ha) ((hm g).2 (ha.trans (.of_parent hag))) ht.acyclic
  apply findWindow_some (by simp [Validate.getParent_eq ht, hg])
  intro x hx'
  have hxa := hx x hx'
  simp only [Option.bind_some, Validate.getParent_eq ht, hg]
  rw [Bool.or_eq_false_iff]
  simp only [beq_eq_false_iff_ne, ne_eq, Option.some.injEq]
  constructor
  · rintro rfl
    cases hxa with
    | refl => exact hne rfl
    | step h1 h2 =>
      rw [hg] at h1; cases h1
      exact ht.acyclic _ _ hag h2
  · rintro rfl
    exact ht.acyclic _ _ hag hxa

theorem srcSibling_none (ht : IsTree h) {s d p q : Nat} (hp : h.hier.parent s = some p)
    (hq : h.hier.parent d = some q) (hn : ∀ a b, Above h.hier.parent q a → h.hier.parent a = some b → b ≠ p ∧ h.hier.parent p ≠ some b) :
    srcSibling h s d = none := by
  have hql := (ht.parent_live _ _ hq).2
  obtain ⟨l, hl, hc, hh, hm⟩ := ancestors_ok ht hql
  unfold srcSibling
  rw [Validate.getParent_eq ht d, hq, hl, Validate.getParent_eq ht s, hp]
  apply findWindow_none
  intro x hx
  have hxl := List.mem_of_mem_tail hx
  have hxq : q ≠ x := by
    rintro rfl
    have := chain_nodup ht.acyclic _ hc
    cases l with
    | nil => cases hx
    | cons y l =>
      cases hh
      exact (List.nodup_cons.1 this).1 hx
  obtain ⟨c, hqc, hcx⟩ := ((hm x).1 hxl).last hxq
  have := hn c x hqc hcx
  simp only [Option.bind_some, Validate.getParent_eq ht]
  rw [Bool.or_eq_false_iff]
  simp only [beq_eq_false_iff_ne, ne_eq, Option.some.injEq]
  exact ⟨fun e => this.1 e.symm, this.2⟩

/-! ## Ports for order -/

theorem other_order {op : Ops.Op} {dir : Ops.Dir} (ht : op.tagOk = true) (ho : .stateOrder ∈ op.ports dir) :
    ∃ i, op.otherPort dir = .ok (some i) ∧ (op.ports dir)[i]? = some .stateOrder := by
  rw [C10_other_port _ _ ht]
  have hs : (List.findIdx? Kind.isOther (op.ports dir)).isSome = true := by
    cases hf : List.findIdx? Kind.isOther (op.ports dir) with
    | some i => rfl
    | none =>
      have := List.findIdx?_eq_none_iff.1 hf _ ho
      simp [Kind.isOther] at this
  obtain ⟨i, hi⟩ := Option.isSome_iff_exists.1 hs
  refine ⟨i, by rw [hi], ?_⟩
  obtain ⟨hlt, hk, -⟩ := List.findIdx?_eq_some_iff_getElem.1 hi
  rw [List.getElem?_eq_getElem hlt]
  have hm := List.getElem_mem hlt
  generalize (op.ports dir)[i] = k at hk hm
  cases k <;> simp [Kind.isOther] at hk
  · cases op <;> cases dir <;> simp [Op.ports] at hm ho
  · rfl

end Verif.Builder
