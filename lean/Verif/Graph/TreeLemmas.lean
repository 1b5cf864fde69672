import Mathlib.Data.List.Nodup
import Mathlib.Data.List.Perm.Subperm
import Mathlib.Data.List.Range
import Verif.Graph.Spec

/-!
# Lemmas about the hierarchy
-/
namespace Verif.Graph

variable {Op Meta : Type}

theorem upd_same {α : Type} (f : Nat → α) (k : Nat) (v : α) : upd f k v k = v := by simp [upd]

theorem upd_ne {α : Type} (f : Nat → α) {k i : Nat} (v : α) (h : i ≠ k) : upd f k v i = f i := by
  simp [upd, h]

/-! ## `Above` -/

theorem Above.trans {parent : Nat → Option Nat} {a b c : Nat} (h : Above parent a b)
    (h2 : Above parent b c) : Above parent a c := by
  induction h with
  | refl => exact h2
  | step hp _ ih => exact .step hp (ih h2)

theorem Above.of_parent {parent : Nat → Option Nat} {a p : Nat} (h : parent a = some p) :
    Above parent a p := .step h (.refl p)

/-- The way up is unique: of two nodes above `a`, one is above the other. -/
theorem Above.total {parent : Nat → Option Nat} {a b c : Nat} (h : Above parent a b)
    (h2 : Above parent a c) : Above parent b c ∨ Above parent c b := by
  induction h with
  | refl => exact Or.inl h2
  | step hp hab ih =>
    cases h2 with
    | refl => exact Or.inr (.step hp hab)
    | step hp2 h2 =>
      rw [hp] at hp2
      cases hp2
      exact ih h2

theorem Above.eq_of_top {parent : Nat → Option Nat} {a b : Nat} (h : Above parent a b)
    (ha : parent a = none) : a = b := by
  cases h with
  | refl => rfl
  | step hp _ => rw [ha] at hp; cases hp

/-- The step before the last. -/
theorem Above.last {parent : Nat → Option Nat} {a b : Nat} (h : Above parent a b) (hne : a ≠ b) :
    ∃ c, Above parent a c ∧ parent c = some b := by
  induction h with
  | refl => exact absurd rfl hne
  | @step n p m hp hpm ih =>
    by_cases hm : p = m
    · subst hm; exact ⟨n, .refl n, hp⟩
    · obtain ⟨c, h1, h2⟩ := ih hm
      exact ⟨c, .step hp h1, h2⟩

/-- No cycles. -/
def Acyclic (parent : Nat → Option Nat) : Prop := ∀ n p, parent n = some p → ¬ Above parent p n

theorem acyclic_of_reach {parent : Nat → Option Nat} {n r : Nat} (h : Above parent n r)
    (hr : parent r = none) : ∀ p, parent n = some p → ¬ Above parent p n := by
  induction h with
  | refl => intro p hp; rw [hr] at hp; cases hp
  | @step n q m hp hqm ih =>
    intro p hp' hab
    rw [hp] at hp'; cases hp'
    cases hab with
    | refl => exact ih hr _ hp (.refl _)
    | step hq hab => exact ih hr _ hq (hab.trans (.of_parent hp))

theorem Above.antisymm {parent : Nat → Option Nat} (hac : Acyclic parent) {a b : Nat}
    (h : Above parent a b) (h2 : Above parent b a) : a = b := by
  cases h with
  | refl => rfl
  | step hp h => exact absurd (h.trans h2) (hac _ _ hp)

/-- The nodes on the way up, as a list. -/
theorem Above.chain {parent : Nat → Option Nat} {a b : Nat} (h : Above parent a b) :
    ∃ l : List Nat, l.IsChain (fun x y => parent x = some y) ∧ l.head? = some a ∧
      l.getLast? = some b ∧ ∀ x ∈ l, Above parent a x ∧ Above parent x b := by
  induction h with
  | refl n => exact ⟨[n], .singleton _, rfl, rfl, by simp [Above.refl]⟩
  | @step n p m hp hpm ih =>
    obtain ⟨l, h1, h2, h3, h4⟩ := ih
    cases l with
    | nil => simp at h2
    | cons x l =>
      simp only [List.head?_cons, Option.some.injEq] at h2
      subst h2
      refine ⟨n :: x :: l, .cons_cons hp h1, rfl, by simpa using h3, ?_⟩
      intro y hy
      rcases List.mem_cons.1 hy with rfl | hy
      · exact ⟨.refl _, .step hp hpm⟩
      · exact ⟨.step hp (h4 y hy).1, (h4 y hy).2⟩

/-! ## The cycle check -/

theorem onPath_above {h : Hier} {fuel p n : Nat} (hp : h.onPath fuel p n = true) :
    Above h.parent p n := by
  induction fuel generalizing p with
  | zero => simp only [Hier.onPath, beq_iff_eq] at hp; subst hp; exact .refl _
  | succ fuel ih =>
    simp only [Hier.onPath, Bool.or_eq_true, beq_iff_eq] at hp
    rcases hp with hp | hp
    · subst hp; exact .refl _
    · cases hq : h.parent p with
      | none => rw [hq] at hp; simp at hp
      | some q => rw [hq] at hp; exact .step hq (ih hp)

theorem onPath_of_chain {h : Hier} (l : List Nat) (fuel p n : Nat)
    (hl : (p :: l).IsChain (fun x y => h.parent x = some y)) (hn : (p :: l).getLast? = some n)
    (hf : l.length ≤ fuel) : h.onPath fuel p n = true := by
  induction l generalizing p fuel with
  | nil =>
    simp only [List.getLast?_singleton, Option.some.injEq] at hn
    subst hn
    cases fuel <;> simp [Hier.onPath]
  | cons q l ih =>
    cases fuel with
    | zero => simp at hf
    | succ fuel =>
      rw [List.isChain_cons_cons] at hl
      simp only [Hier.onPath, hl.1, Bool.or_eq_true]
      exact Or.inr (ih fuel q hl.2 (by simpa using hn) (by simpa using hf))

theorem chain_nodup {parent : Nat → Option Nat} (hac : Acyclic parent) (l : List Nat)
    (hl : l.IsChain (fun x y => parent x = some y)) : l.Nodup := by
  have key : ∀ (l : List Nat) (p : Nat), (p :: l).IsChain (fun x y => parent x = some y) →
      ∀ x ∈ l, ∃ q, parent p = some q ∧ Above parent q x := by
    intro l
    induction l with
    | nil => intro p _ x hx; simp at hx
    | cons q l ih =>
      intro p hl x hx
      rw [List.isChain_cons_cons] at hl
      rcases List.mem_cons.1 hx with rfl | hx
      · exact ⟨_, hl.1, .refl _⟩
      · obtain ⟨r, hr, ha⟩ := ih q hl.2 x hx
        exact ⟨q, hl.1, .step hr ha⟩
  induction l with
  | nil => simp
  | cons p l ih =>
    rw [List.nodup_cons]
    constructor
    · intro hx
      obtain ⟨q, hq, ha⟩ := key l p hl p hx
      exact hac p q hq ha
    · exact ih hl.tail

/-- The cycle check is exact if there are no cycles and every node with a parent is below `fuel`. -/
theorem onPath_iff {h : Hier} {fuel : Nat} (hac : Acyclic h.parent)
    (hb : ∀ n p, h.parent n = some p → n < fuel) (p n : Nat) :
    h.onPath fuel p n = true ↔ Above h.parent p n := by
  constructor
  · exact onPath_above
  · intro ha
    obtain ⟨l, h1, h2, h3, h4⟩ := ha.chain
    cases l with
    | nil => simp at h2
    | cons x l =>
      simp only [List.head?_cons, Option.some.injEq] at h2
      subst h2
      refine onPath_of_chain l fuel x n h1 h3 ?_
      have hnd := chain_nodup hac _ h1
      -- all but the last node have a parent
      have hlt : ∀ y ∈ (x :: l).dropLast, y < fuel := by
        clear h3 hnd ha h4
        induction l generalizing x with
        | nil => simp
        | cons z l ih =>
          rw [List.isChain_cons_cons] at h1
          intro y hy
          rw [List.dropLast_cons_cons] at hy
          rcases List.mem_cons.1 hy with rfl | hy
          · exact hb _ _ h1.1
          · exact ih z h1.2 y hy
      have hsub : (x :: l).dropLast ⊆ List.range fuel := fun y hy => List.mem_range.2 (hlt y hy)
      have := (List.subperm_of_subset (hnd.sublist (List.dropLast_sublist _)) hsub).length_le
      simpa using this

/-! ## Attaching and detaching -/

/-- Parents and children agree. -/
structure Hier.Ok (h : Hier) : Prop where
  child_iff : ∀ p n, n ∈ h.children p ↔ h.parent n = some p
  child_once : ∀ p, (h.children p).Nodup

theorem detach_parent (h : Hier) (n : Nat) : (h.detach n).parent = upd h.parent n none := by
  unfold Hier.detach
  cases hp : h.parent n with
  | none => funext i; by_cases hi : i = n <;> simp [upd, hi, hp]
  | some p => rfl

theorem detach_children {h : Hier} (hok : h.Ok) (n q : Nat) :
    (h.detach n).children q = (h.children q).erase n := by
  unfold Hier.detach
  cases hp : h.parent n with
  | none =>
    simp only []
    rw [List.erase_of_not_mem]
    rw [hok.child_iff, hp]; simp
  | some p =>
    simp only []
    by_cases hq : q = p
    · subst hq; rw [upd_same]
    · rw [upd_ne _ _ hq, List.erase_of_not_mem]
      rw [hok.child_iff, hp]
      simp only [Option.some.injEq]
      exact fun e => hq e.symm

theorem detach_ok {h : Hier} (hok : h.Ok) (n : Nat) : (h.detach n).Ok := by
  constructor
  · intro p m
    rw [detach_children hok, detach_parent, (hok.child_once p).mem_erase_iff, hok.child_iff]
    by_cases hm : m = n
    · subst hm; simp [upd_same]
    · simp [upd_ne _ _ hm, hm]
  · intro p; rw [detach_children hok]; exact (hok.child_once p).erase n

/-- Attaching `n` below `q`, with the new list of children of `q`. -/
def Hier.attach (h : Hier) (n q : Nat) (cs : List Nat) : Hier :=
  { parent := upd h.parent n (some q), children := upd h.children q cs }

theorem attach_ok {h : Hier} (hok : h.Ok) {n q : Nat} {cs : List Nat} (hn : h.parent n = none)
    (hcs : ∀ x, x ∈ cs ↔ x = n ∨ x ∈ h.children q) (hnd : cs.Nodup) : (h.attach n q cs).Ok := by
  constructor
  · intro p m
    simp only [Hier.attach]
    by_cases hp : p = q
    · subst hp
      rw [upd_same, hcs]
      by_cases hm : m = n
      · subst hm; simp [upd_same]
      · simp [upd_ne _ _ hm, hm, hok.child_iff]
    · rw [upd_ne _ _ hp, hok.child_iff]
      by_cases hm : m = n
      · subst hm
        simp only [upd_same, hn, Option.some.injEq]
        constructor
        · intro h; simp at h
        · intro h; exact absurd h.symm hp
      · simp [upd_ne _ _ hm]
  · intro p
    simp only [Hier.attach]
    by_cases hp : p = q
    · subst hp; rwa [upd_same]
    · rw [upd_ne _ _ hp]; exact hok.child_once p

theorem mem_insertBeforeIn {s n x : Nat} {l : List Nat} (hs : s ∈ l) :
    x ∈ insertBeforeIn s n l ↔ x = n ∨ x ∈ l := by
  induction l with
  | nil => simp at hs
  | cons y l ih =>
    simp only [insertBeforeIn]
    by_cases hy : y = s
    · simp [hy]
    · have hs' : s ∈ l := by
        rcases List.mem_cons.1 hs with e | e
        · exact absurd e.symm hy
        · exact e
      simp only [hy, if_false, List.mem_cons, ih hs']
      tauto

theorem nodup_insertBeforeIn {s n : Nat} {l : List Nat} (hl : l.Nodup) (hn : n ∉ l) :
    (insertBeforeIn s n l).Nodup := by
  induction l with
  | nil => simp [insertBeforeIn]
  | cons y l ih =>
    simp only [insertBeforeIn]
    rw [List.nodup_cons] at hl
    simp only [List.mem_cons, not_or] at hn
    by_cases hy : y = s
    · simp only [hy, if_true]
      rw [List.nodup_cons, List.nodup_cons]
      subst hy
      exact ⟨by simp [hn.1, hn.2], hl.1, hl.2⟩
    · simp only [hy, if_false]
      rw [List.nodup_cons]
      refine ⟨?_, ih hl.2 hn.2⟩
      by_cases hs : s ∈ l
      · rw [mem_insertBeforeIn hs]
        simp only [not_or]
        exact ⟨fun e => hn.1 e.symm, hl.1⟩
      · have : insertBeforeIn s n l = l := by
          clear ih hl hn
          induction l with
          | nil => rfl
          | cons z l ih =>
            simp only [List.mem_cons, not_or] at hs
            simp only [insertBeforeIn]
            rw [if_neg (fun e => hs.1 e.symm), ih hs.2]
        rw [this]; exact hl.1

theorem mem_insertAfterIn {s n x : Nat} {l : List Nat} (hs : s ∈ l) :
    x ∈ insertAfterIn s n l ↔ x = n ∨ x ∈ l := by
  induction l with
  | nil => simp at hs
  | cons y l ih =>
    simp only [insertAfterIn]
    by_cases hy : y = s
    · simp only [hy, if_true, List.mem_cons]; tauto
    · have hs' : s ∈ l := by
        rcases List.mem_cons.1 hs with e | e
        · exact absurd e.symm hy
        · exact e
      simp only [hy, if_false, List.mem_cons, ih hs']
      tauto

theorem nodup_insertAfterIn {s n : Nat} {l : List Nat} (hl : l.Nodup) (hn : n ∉ l) :
    (insertAfterIn s n l).Nodup := by
  induction l with
  | nil => simp [insertAfterIn]
  | cons y l ih =>
    simp only [insertAfterIn]
    rw [List.nodup_cons] at hl
    simp only [List.mem_cons, not_or] at hn
    by_cases hy : y = s
    · simp only [hy, if_true]
      rw [List.nodup_cons, List.nodup_cons]
      subst hy
      exact ⟨by simp [hl.1, Ne.symm hn.1], hn.2, hl.2⟩
    · simp only [hy, if_false]
      rw [List.nodup_cons]
      refine ⟨?_, ih hl.2 hn.2⟩
      by_cases hs : s ∈ l
      · rw [mem_insertAfterIn hs]
        simp only [not_or]
        exact ⟨fun e => hn.1 e.symm, hl.1⟩
      · have : insertAfterIn s n l = l := by
          clear ih hl hn
          induction l with
          | nil => rfl
          | cons z l ih =>
            simp only [List.mem_cons, not_or] at hs
            simp only [insertAfterIn]
            rw [if_neg (fun e => hs.1 e.symm), ih hs.2]
        rw [this]; exact hl.1

/-! ## Reaching the root -/

theorem Above.mono {p p' : Nat → Option Nat} (hle : ∀ n q, p n = some q → p' n = some q) {a b : Nat}
    (h : Above p a b) : Above p' a b := by
  induction h with
  | refl => exact .refl _
  | step hp _ ih => exact .step (hle _ _ hp) ih

/-- Cutting `n` off: what was below `r` is now below `r` or below `n`. -/
theorem above_cut {parent : Nat → Option Nat} {m r : Nat} (n : Nat) (h : Above parent m r) :
    Above (upd parent n none) m r ∨ Above (upd parent n none) m n := by
  induction h with
  | refl => exact Or.inl (.refl _)
  | @step a p r hp _ ih =>
    by_cases ha : a = n
    · subst ha; exact Or.inr (.refl _)
    · have hp' : upd parent n none a = some p := by rw [upd_ne _ _ ha]; exact hp
      exact ih.imp (.step hp') (.step hp')

/-- Attaching `n` (without a parent) below `q`: the ways up that do not end at `n` are the same. -/
theorem above_attach {parent : Nat → Option Nat} {n q a b : Nat} (hn : parent n = none)
    (h : Above parent a b) : Above (upd parent n (some q)) a b := by
  refine h.mono ?_
  intro m p hp
  have : m ≠ n := fun e => by rw [e, hn] at hp; cases hp
  rw [upd_ne _ _ this]; exact hp

theorem attach_reaches {parent : Nat → Option Nat} {n q r : Nat} (hn : parent n = none)
    (hq : Above parent q r) {m : Nat} (hm : Above parent m r ∨ Above parent m n) :
    Above (upd parent n (some q)) m r := by
  rcases hm with hm | hm
  · exact above_attach hn hm
  · exact (above_attach hn hm).trans (.step (upd_same ..) (above_attach hn hq))

end Verif.Graph
