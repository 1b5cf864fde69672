import Mathlib.Data.Nat.Basic
import Verif.Registry.Spec
/-!
# C30: an extension registry keeps the newest version of each extension
-/
namespace Verif.Registry

set_option linter.unusedSectionVars false

variable {K V B E : Type} [LinearOrder K] [LinearOrder V]

/-- The registry after a history of calls. -/
def Reg.run (r : Reg K V B) (ops : List (RegOp K V B)) : Reg K V B :=
  ops.foldl (fun r op => (r.step op).1) r

/-- The registry holds the newest of the offers. -/
structure RegRep (r : Reg K V B) (c : Offers K V B) : Prop where
  sorted : BmSorted r.exts
  named : ∀ x ∈ r.exts, x.1 = x.2.name
  holds : ∀ n, Holds (c n) (bmGet r.exts n)

theorem IsNewest.snoc_new {l : List (Ext K V B)} {p e : Ext K V B} (h : IsNewest l p)
    (hv : p.version < e.version) : IsNewest (l ++ [e]) e := by
  obtain ⟨b, a, rfl, hb, ha⟩ := h
  refine ⟨b ++ p :: a, [], by simp, ?_, by simp⟩
  intro x hx
  rcases List.mem_append.1 hx with hx | hx
  · exact lt_trans (hb x hx) hv
  · rcases List.mem_cons.1 hx with rfl | hx
    · exact hv
    · exact lt_of_le_of_lt (ha x hx) hv

theorem IsNewest.snoc_old {l : List (Ext K V B)} {p e : Ext K V B} (h : IsNewest l p)
    (hv : e.version ≤ p.version) : IsNewest (l ++ [e]) p := by
  obtain ⟨b, a, rfl, hb, ha⟩ := h
  refine ⟨b, a ++ [e], by simp, hb, ?_⟩
  intro x hx
  rcases List.mem_append.1 hx with hx | hx
  · exact ha x hx
  · simp at hx; subst hx; exact hv

theorem regRep_insert {r : Reg K V B} {c : Offers K V B} (h : RegRep r c) (e : Ext K V B)
    (hn : IsNewest (c e.name ++ [e]) e) :
    RegRep ⟨bmInsert r.exts e.name e, false⟩ (c.offer e) := by
  refine ⟨bmInsert_sorted h.sorted _ _, ?_, ?_⟩
  · intro x hx
    rcases bmInsert_mem _ _ hx with rfl | hx
    · rfl
    · exact h.named x hx
  · intro n
    simp only [Offers.offer]
    rw [bmGet_insert h.sorted]
    by_cases hne : n = e.name
    · subst hne; simp only [if_true, Holds]; exact hn
    · simp only [hne, Ne.symm hne, if_false]; exact h.holds n

theorem regRep_update {r : Reg K V B} {c : Offers K V B} (h : RegRep r c) (e : Ext K V B) :
    RegRep (r.registerUpdated e) (c.offer e) := by
  have hh := h.holds e.name
  unfold Reg.registerUpdated
  cases hg : bmGet r.exts e.name with
  | none =>
    rw [hg] at hh
    simp only [Holds] at hh
    exact regRep_insert h e (by rw [hh]; exact ⟨[], [], by simp, by simp, by simp⟩)
  | some p =>
    rw [hg] at hh
    simp only [Holds] at hh
    by_cases hv : p.version < e.version
    · simp only [hv, if_true]
      exact regRep_insert h e (hh.snoc_new hv)
    · simp only [hv, if_false]
      refine ⟨h.sorted, h.named, ?_⟩
      intro n
      simp only [Offers.offer]
      by_cases hne : n = e.name
      · subst hne
        simp only [if_true, hg, Holds]
        exact hh.snoc_old (not_lt.1 hv)
      · simp only [hne, if_false]; exact h.holds n

theorem regRep_foldl {r : Reg K V B} {c : Offers K V B} (h : RegRep r c) (es : List (Ext K V B)) :
    RegRep (es.foldl Reg.registerUpdated r) (es.foldl Offers.offer c) := by
  induction es generalizing r c with
  | nil => exact h
  | cons e es ih => exact ih (regRep_update h e)

theorem regRep_step {r : Reg K V B} {c : Offers K V B} (h : RegRep r c) (op : RegOp K V B) :
    RegRep (r.step op).1 (c.step op) ∧ Answers c op (r.step op).2 := by
  cases op with
  | registerUpdated e => exact ⟨regRep_update h e, rfl⟩
  | extend es => exact ⟨regRep_foldl h es, rfl⟩
  | register e =>
    have hh := h.holds e.name
    simp only [Reg.step, Reg.register, Offers.step]
    cases hg : bmGet r.exts e.name with
    | none =>
      rw [hg] at hh
      simp only [Holds] at hh
      simp only [hh, List.isEmpty_nil, if_true]
      refine ⟨regRep_insert h e (by rw [hh]; exact ⟨[], [], by simp, by simp, by simp⟩), ?_⟩
      exact Or.inl ⟨hh, rfl⟩
    | some p =>
      rw [hg] at hh
      have hne : (c e.name).isEmpty = false := by
        obtain ⟨b, a, hl, _⟩ := hh
        rw [hl]; simp
      simp only [hne, Bool.false_eq_true, if_false]
      exact ⟨h, Or.inr ⟨p, hh, rfl⟩⟩
  | remove n =>
    refine ⟨⟨bmRemove_sorted h.sorted n, ?_, ?_⟩, ?_⟩
    · intro x hx
      exact h.named x ((bmRemove_sublist _ _).subset hx)
    · intro m
      simp only [Offers.step, Reg.step, Reg.remove]
      rw [bmGet_remove h.sorted]
      by_cases hm : m = n
      · subst hm; simp [Holds]
      · simp only [hm, Ne.symm hm, if_false]; exact h.holds m
    · exact ⟨_, h.holds n, rfl⟩
  | get n => exact ⟨h, ⟨_, h.holds n, rfl⟩⟩

theorem regRep_run {r : Reg K V B} {c : Offers K V B} (h : RegRep r c) (ops : List (RegOp K V B)) :
    RegRep (r.run ops) (ops.foldl Offers.step c) := by
  induction ops generalizing r c with
  | nil => exact h
  | cons op ops ih => exact ih (regRep_step h op).1

theorem regRep_empty (r : Reg K V B) (h : r.exts = []) : RegRep r (fun _ => []) := by
  refine ⟨by simp [h, BmSorted], by simp [h], ?_⟩
  intro n; simp [h, bmGet, Holds]

/-- **C30.** After every history of calls on a new registry, each id maps to the first
of the newest extensions offered under it since its last removal (and to nothing
exactly when none was offered), every call answers accordingly, and the ids are
listed in ascending order, each once, with the extension that bears it. -/
theorem C30_registry_keeps_newest (ops : List (RegOp K V B)) :
    (∀ n, Holds (offersAfter ops n) ((Reg.empty.run ops).get n)) ∧
    (∀ op, Answers (offersAfter ops) op ((Reg.empty.run ops).step op).2) ∧
    ((Reg.empty.run ops).exts.map Prod.fst).Pairwise (· < ·) ∧
    ∀ x ∈ (Reg.empty.run ops).exts, x.1 = x.2.name := by
  have h := regRep_run (regRep_empty (Reg.empty : Reg K V B) rfl) ops
  exact ⟨h.holds, fun op => (regRep_step h op).2, h.sorted, h.named⟩

/-- **C30, for `ExtensionRegistry::new`.** A registry built from a list holds the first
of the newest extensions of each id. -/
theorem C30_registry_new (es : List (Ext K V B)) (n : K) :
    Holds (es.filter (·.name = n)) ((Reg.new es).get n) := by
  have h := regRep_foldl (regRep_empty (Reg.empty : Reg K V B) rfl) es
  have hc : ∀ (c : Offers K V B), es.foldl Offers.offer c n = c n ++ es.filter (·.name = n) := by
    induction es with
    | nil => simp
    | cons e es ih =>
      intro c
      have ih := ih (regRep_foldl (regRep_empty (Reg.empty : Reg K V B) rfl) es) (c.offer e)
      rw [List.foldl_cons, ih]
      by_cases hn : e.name = n
      · subst hn; simp [Offers.offer]
      · simp [Offers.offer, hn, Ne.symm hn]
  have := h.holds n
  rw [hc, List.nil_append] at this
  exact this

/-- `IsNewest` picks a unique extension: the specification is functional. -/
theorem isNewest_unique (l : List (Ext K V B)) (e e' : Ext K V B) (h : IsNewest l e)
    (h' : IsNewest l e') : e = e' := by
  obtain ⟨b, a, rfl, hb, ha⟩ := h
  obtain ⟨b', a', hl, hb', ha'⟩ := h'
  rcases List.append_eq_append_iff.1 hl with ⟨c, hc1, hc2⟩ | ⟨c, hc1, hc2⟩
  · cases c with
    | nil => simp at hc2; exact hc2.1
    | cons x c =>
      simp only [List.cons_append, List.cons.injEq] at hc2
      have h1 := hb' e (by rw [hc1, hc2.1]; simp)
      have h2 := ha e' (by rw [hc2.2]; simp)
      exact absurd h1 (not_lt.2 h2)
  · cases c with
    | nil => simp at hc2; exact hc2.1.symm
    | cons x c =>
      simp only [List.cons_append, List.cons.injEq] at hc2
      have h1 := hb e' (by rw [hc1, hc2.1]; simp)
      have h2 := ha' e (by rw [hc2.2]; simp)
      exact absurd h1 (not_lt.2 h2)

/-- Three versions of one extension, out of order, one of them twice. -/
example : ((Reg.new [⟨0, 2, "a"⟩, ⟨1, 7, "z"⟩, ⟨0, 5, "b"⟩, ⟨0, 5, "c"⟩, ⟨0, 3, "d"⟩] :
      Reg Nat Nat String).get 0).map Ext.body = some "b" := by decide

/-! ## C31: registry validation is never stale -/

/-- A registry with the number of `validate` calls that are running on it, that is,
that have read the flag as `false` and not yet returned. They hold a shared
reference, so no call that needs an exclusive reference can run meanwhile. -/
structure Shared (K V B : Type) where
  reg : Reg K V B
  running : Nat

/-- The actions of any number of threads on a pool of registries. -/
inductive PoolOp (K V B : Type) where
  /-- `ExtensionRegistry::new`. -/
  | create (es : List (Ext K V B))
  /-- `Clone::clone` (extension.rs:68-75), which may overlap with running `validate` calls. -/
  | clone (i : Nat)
  /-- A call through an exclusive reference. -/
  | mutate (i : Nat) (op : RegOp K V B)
  /-- `validate` reads the flag (extension.rs:117-119). -/
  | validateStart (i : Nat)
  /-- `validate` checks the extensions, stores the flag and returns (extension.rs:120-125). -/
  | validateEnd (i : Nat)

/-- What the action observes: nothing, or the result of a `validate` call. -/
inductive PoolOut (K E : Type) where
  | none
  | validated (result : Option (K × E))

/-- One action; `none` when the action is not possible in this state (the registry
does not exist, an exclusive reference cannot be had, or no `validate` is running). -/
def poolStep (check : Ext K V B → Option E) (p : List (Shared K V B)) :
    PoolOp K V B → Option (List (Shared K V B) × PoolOut K E)
  | .create es => some (p ++ [⟨Reg.new es, 0⟩], .none)
  | .clone i => (p[i]?).map fun s => (p ++ [⟨⟨s.reg.exts, s.reg.valid⟩, 0⟩], .none)
  | .mutate i op =>
    match p[i]? with
    | some s => if s.running = 0 then some (p.set i ⟨(s.reg.step op).1, 0⟩, .none) else none
    | none => none
  | .validateStart i =>
    match p[i]? with
    | some s =>
      if s.reg.valid then some (p, .validated none)
      else some (p.set i ⟨s.reg, s.running + 1⟩, .none)
    | none => none
  | .validateEnd i =>
    match p[i]? with
    | some s =>
      if s.running = 0 then none
      else
        match firstInvalid check s.reg.exts with
        | some err => some (p.set i ⟨s.reg, s.running - 1⟩, .validated (some err))
        | none => some (p.set i ⟨⟨s.reg.exts, true⟩, s.running - 1⟩, .validated none)
    | none => none

/-- The pools reachable by any schedule of actions, starting from the static empty
registry. -/
inductive Reachable (check : Ext K V B → Option E) : List (Shared K V B) → Prop
  | init : Reachable check [⟨Reg.emptyStatic, 0⟩]
  | step {p op p' out} : Reachable check p → poolStep check p op = some (p', out) →
      Reachable check p'

/-- The registry that an action is about. -/
def PoolOp.target : PoolOp K V B → Option Nat
  | .validateStart i => some i
  | .validateEnd i => some i
  | _ => none

/-- The result of `validate` describes the current contents of the registry. -/
def Reports (check : Ext K V B → Option E) (r : Reg K V B) : Option (K × E) → Prop
  | none => ∀ x ∈ r.exts, check x.2 = none
  | some (n, err) => ∃ x ∈ r.exts, x.2.name = n ∧ check x.2 = some err

theorem firstInvalid_none (check : Ext K V B → Option E) (m : List (K × Ext K V B)) :
    firstInvalid check m = none ↔ ∀ x ∈ m, check x.2 = none := by
  induction m with
  | nil => simp [firstInvalid]
  | cons e m ih =>
    obtain ⟨k, e⟩ := e
    simp only [firstInvalid]
    cases hc : check e with
    | some err => simp [hc]
    | none => simp [hc, ih]

theorem firstInvalid_some (check : Ext K V B → Option E) (m : List (K × Ext K V B)) (n : K) (err : E)
    (h : firstInvalid check m = some (n, err)) :
    ∃ x ∈ m, x.2.name = n ∧ check x.2 = some err := by
  induction m with
  | nil => simp [firstInvalid] at h
  | cons e m ih =>
    obtain ⟨k, e⟩ := e
    simp only [firstInvalid] at h
    cases hc : check e with
    | some err' =>
      rw [hc] at h
      simp only [Option.some.injEq, Prod.mk.injEq] at h
      exact ⟨(k, e), List.mem_cons_self .., h.1, by rw [hc, h.2]⟩
    | none =>
      rw [hc] at h
      obtain ⟨x, hx, hx'⟩ := ih h
      exact ⟨x, List.mem_cons_of_mem _ hx, hx'⟩

/-- The flag is set only when all extensions are valid. -/
def FlagOk (check : Ext K V B → Option E) (r : Reg K V B) : Prop :=
  r.valid = true → ∀ x ∈ r.exts, check x.2 = none

theorem registerUpdated_flag (r : Reg K V B) (e : Ext K V B) : (r.registerUpdated e).valid = false := by
  unfold Reg.registerUpdated
  split
  · split <;> rfl
  · rfl

theorem foldl_flag (check : Ext K V B → Option E) (es : List (Ext K V B)) (r : Reg K V B)
    (h : FlagOk check r) : FlagOk check (es.foldl Reg.registerUpdated r) := by
  induction es generalizing r with
  | nil => exact h
  | cons e es ih =>
    exact ih _ (fun hv => by rw [registerUpdated_flag] at hv; simp at hv)

theorem step_flag (check : Ext K V B → Option E) (r : Reg K V B) (h : FlagOk check r)
    (op : RegOp K V B) : FlagOk check (r.step op).1 := by
  cases op with
  | register e =>
    simp only [Reg.step, Reg.register]
    split
    · exact h
    · intro hv; simp at hv
  | registerUpdated e => exact foldl_flag check [e] r h
  | extend es => exact foldl_flag check es r h
  | remove n => intro hv; simp [Reg.step, Reg.remove] at hv
  | get n => exact h

theorem reachable_flag (check : Ext K V B → Option E) (p : List (Shared K V B))
    (h : Reachable check p) : ∀ s ∈ p, FlagOk check s.reg := by
  induction h with
  | init => intro s hs; simp at hs; subst hs; intro _; simp [Reg.emptyStatic]
  | @step p op p' out _ hstep ih =>
    have hset : ∀ (i : Nat) (t : Shared K V B), FlagOk check t.reg →
        ∀ s ∈ p.set i t, FlagOk check s.reg := by
      intro i t ht s hs
      rcases List.mem_or_eq_of_mem_set hs with hs | rfl
      · exact ih s hs
      · exact ht
    cases op with
    | create es =>
      simp only [poolStep, Option.some.injEq, Prod.mk.injEq] at hstep
      rw [← hstep.1]
      intro s hs
      rcases List.mem_append.1 hs with hs | hs
      · exact ih s hs
      · simp at hs
        subst hs
        exact foldl_flag check es _ (fun hv => by simp [Reg.empty] at hv)
    | clone i =>
      simp only [poolStep, Option.map_eq_some_iff, Prod.mk.injEq] at hstep
      obtain ⟨t, ht, hp, _⟩ := hstep
      rw [← hp]
      intro s hs
      rcases List.mem_append.1 hs with hs | hs
      · exact ih s hs
      · simp at hs
        subst hs
        exact ih t (List.mem_of_getElem? ht)
    | mutate i op =>
      simp only [poolStep] at hstep
      cases ht : p[i]? with
      | none => rw [ht] at hstep; simp at hstep
      | some t =>
        rw [ht] at hstep
        simp only at hstep
        split at hstep
        · simp only [Option.some.injEq, Prod.mk.injEq] at hstep
          rw [← hstep.1]
          exact hset i _ (step_flag check _ (ih t (List.mem_of_getElem? ht)) op)
        · simp at hstep
    | validateStart i =>
      simp only [poolStep] at hstep
      cases ht : p[i]? with
      | none => rw [ht] at hstep; simp at hstep
      | some t =>
        rw [ht] at hstep
        simp only at hstep
        split at hstep
        · simp only [Option.some.injEq, Prod.mk.injEq] at hstep
          rw [← hstep.1]; exact ih
        · simp only [Option.some.injEq, Prod.mk.injEq] at hstep
          rw [← hstep.1]
          exact hset i _ (ih t (List.mem_of_getElem? ht))
    | validateEnd i =>
      simp only [poolStep] at hstep
      cases ht : p[i]? with
      | none => rw [ht] at hstep; simp at hstep
      | some t =>
        rw [ht] at hstep
        simp only at hstep
        split at hstep
        · simp at hstep
        · cases hf : firstInvalid check t.reg.exts with
          | some err =>
            rw [hf] at hstep
            simp only [Option.some.injEq, Prod.mk.injEq] at hstep
            rw [← hstep.1]
            exact hset i _ (ih t (List.mem_of_getElem? ht))
          | none =>
            rw [hf] at hstep
            simp only [Option.some.injEq, Prod.mk.injEq] at hstep
            rw [← hstep.1]
            exact hset i _ (fun _ => (firstInvalid_none check _).1 hf)

/-- **C31.** Whatever calls were made before, on this registry, on the ones it was
cloned from and by however many threads: when `validate` on registry `i` returns,
it returns `Ok` only if every extension now in the registry is valid, and returns an
error only if some extension now in the registry fails with that error. -/
theorem C31_validate_never_stale (check : Ext K V B → Option E) (p p' : List (Shared K V B))
    (h : Reachable check p) (op : PoolOp K V B) (i : Nat) (hi : op.target = some i)
    (result : Option (K × E)) (hstep : poolStep check p op = some (p', .validated result)) :
    ∃ s, p'[i]? = some s ∧ Reports check s.reg result := by
  have hfl := reachable_flag check p h
  cases op with
  | create es => simp [PoolOp.target] at hi
  | clone i => simp [PoolOp.target] at hi
  | mutate i op => simp [PoolOp.target] at hi
  | validateStart j =>
    simp only [PoolOp.target, Option.some.injEq] at hi
    subst hi
    simp only [poolStep] at hstep
    cases ht : p[j]? with
    | none => rw [ht] at hstep; simp at hstep
    | some t =>
      rw [ht] at hstep
      simp only at hstep
      split at hstep
      · rename_i hv
        simp only [Option.some.injEq, Prod.mk.injEq, PoolOut.validated.injEq] at hstep
        rw [← hstep.1, ← hstep.2]
        exact ⟨t, ht, hfl t (List.mem_of_getElem? ht) hv⟩
      · simp at hstep
  | validateEnd j =>
    simp only [PoolOp.target, Option.some.injEq] at hi
    subst hi
    simp only [poolStep] at hstep
    cases ht : p[j]? with
    | none => rw [ht] at hstep; simp at hstep
    | some t =>
      have hlt := (List.getElem?_eq_some_iff.1 ht).1
      rw [ht] at hstep
      simp only at hstep
      split at hstep
      · simp at hstep
      · cases hf : firstInvalid check t.reg.exts with
        | some err =>
          rw [hf] at hstep
          simp only [Option.some.injEq, Prod.mk.injEq, PoolOut.validated.injEq] at hstep
          rw [← hstep.1, ← hstep.2]
          refine ⟨⟨t.reg, t.running - 1⟩, by simp [hlt], ?_⟩
          exact firstInvalid_some check _ err.1 err.2 hf
        | none =>
          rw [hf] at hstep
          simp only [Option.some.injEq, Prod.mk.injEq, PoolOut.validated.injEq] at hstep
          rw [← hstep.1, ← hstep.2]
          exact ⟨⟨⟨t.reg.exts, true⟩, t.running - 1⟩, by simp [hlt],
            (firstInvalid_none check _).1 hf⟩

/-- The call an undisturbed thread makes: read the flag, then check if needed. -/
def validateAlone (check : Ext K V B → Option E) (r : Reg K V B) : Reg K V B × Option (K × E) :=
  if r.valid then (r, none)
  else match firstInvalid check r.exts with
    | some err => (r, some err)
    | none => (⟨r.exts, true⟩, none)

/-- **C31, exactness.** `validate` on a reachable registry returns `Ok` if and only if
every extension in it is valid. -/
theorem C31_validate_exact (check : Ext K V B → Option E) (p : List (Shared K V B))
    (h : Reachable check p) (s : Shared K V B) (hs : s ∈ p) :
    (validateAlone check s.reg).2 = none ↔ ∀ x ∈ s.reg.exts, check x.2 = none := by
  have hfl := reachable_flag check p h s hs
  unfold validateAlone
  by_cases hv : s.reg.valid = true
  · simp only [hv, if_true, true_iff]; exact hfl hv
  · simp only [hv, Bool.false_eq_true, if_false]
    rw [← firstInvalid_none check]
    cases firstInvalid check s.reg.exts <;> simp

/-- Two threads validate, one registers an invalid extension afterwards: the second
`validate` reports it. (Extensions with body `1` are invalid.) -/
example :
    let check : Ext Nat Nat Nat → Option String := fun e => if e.body = 1 then some "bad" else none
    let run := fun (p : Option (List (Shared Nat Nat Nat))) op =>
      p.bind fun p => (poolStep check p op).map (·.1)
    let p := [PoolOp.create [⟨0, 0, 0⟩], .validateStart 1, .validateStart 1, .validateEnd 1,
      .validateEnd 1, .mutate 1 (.register ⟨5, 0, 1⟩), .clone 1, .validateStart 2].foldl run
        (some [⟨Reg.emptyStatic, 0⟩])
    (p.bind fun p => (poolStep check p (.validateEnd 2)).map fun q => match q.2 with
      | .validated (some (n, _)) => n | _ => 99) = some 5 := by decide

end Verif.Registry
