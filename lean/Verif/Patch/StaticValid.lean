import Verif.Patch.InlineCallLemmas
import Verif.Passes.DeadFuncsProps

/-!
# Functions and constants of a valid Hugr

What the passes ask of the static links of a Hugr follows from its validity.
-/
namespace Verif.Patch

open Verif.Graph Verif.Ops Verif.Passes Verif.Validate Verif.Dataflow

variable {Meta : Type} {C : Validate.Context} {h : Hugr Ops.Op Meta}

/-- A call or load has one link that tells what to use. The validator does not check this. -/
def OneSource (h : Hugr Ops.Op Meta) : Prop :=
  ∀ l l', StaticLink h l → StaticLink h l' → l.dst = l'.dst → l.src = l'.src

theorem valid_oneModule (ht : IsTree h) (hv : Valid C h) : OneModule h := by
  intro n hn hop
  by_contra hne
  obtain ⟨p, hp⟩ := ht.has_parent n hn hne
  have htop := module_top hv hop
  rw [hp] at htop; cases htop

/-- Functions are at module level. -/
theorem func_atModule (ht : IsTree h) (hv : Valid C h) {f : Nat}
    (hf : (∃ n s, h.ops f = .funcDefn n s) ∨ ∃ n s, h.ops f = .funcDecl n s) {p : Nat}
    (hp : h.hier.parent f = some p) : p = h.moduleRoot := by
  refine valid_oneModule ht hv p (ht.parent_live _ _ hp).2 ?_
  have hc := hv.contains f p hp
  rcases hf with ⟨n, s, hf⟩ | ⟨n, s, hf⟩ <;> rw [hf] at hc <;> unfold MayContain at hc <;>
    cases hq : h.ops p <;> rw [hq] at hc <;> simp [DataflowChild] at hc

/-- What is the kind of a static port. -/
theorem static_kind {op : Ops.Op} {port : Nat} (ho : op.ownStaticPort = some port) :
    (∃ sig, (op.ports .incoming)[port]? = some (.function sig)) ∨
    ∃ t, op = .loadConstant t ∧ (op.ports .incoming)[port]? = some (.const t) := by
  cases op <;> simp [Ops.Op.ownStaticPort] at ho
  all_goals subst ho
  all_goals simp [Op.ports]

theorem kind_static {op : Ops.Op} {port : Nat} {kind : Kind} (hk : (op.ports .incoming)[port]? = some kind)
    (hs : kind.isStatic = true) : op.ownStaticPort = some port := by
  have hmap : ∀ {ts : List Types.Ty} {p : Nat}, (ts.map Kind.value ++ [Kind.stateOrder])[p]? = some kind → False := by
    intro ts p hp
    have := List.mem_of_getElem? hp
    simp only [List.mem_append, List.mem_map, List.mem_singleton] at this
    rcases this with ⟨t, _, rfl⟩ | rfl <;> cases hs
  cases op with
  | call sig targs inst =>
    rw [call_ports] at hk
    simp only [Ops.Op.ownStaticPort, Option.some.injEq]
    by_contra hne
    rcases Nat.lt_or_ge port inst.input.length with hlt | hge
    · rw [List.append_assoc, List.getElem?_append_left (by simpa using hlt)] at hk
      have := List.mem_of_getElem? hk
      simp only [List.mem_map] at this
      obtain ⟨t, _, rfl⟩ := this
      cases hs
    · rw [List.getElem?_append_right (by simp; omega)] at hk
      have := List.mem_of_getElem? hk
      simp only [List.mem_singleton] at this
      subst this; cases hs
  | loadConstant t =>
    rcases port with _ | port
    · rfl
    · have hk' : ([Kind.stateOrder] : List Kind)[port]? = some kind := by simpa [Op.ports] using hk
      have := List.mem_of_getElem? hk'
      simp only [List.mem_singleton] at this
      subst this; cases hs
  | loadFunction a b c =>
    rcases port with _ | port
    · rfl
    · have hk' : ([Kind.stateOrder] : List Kind)[port]? = some kind := by simpa [Op.ports] using hk
      have := List.mem_of_getElem? hk'
      simp only [List.mem_singleton] at this
      subst this; cases hs
  | _ =>
    exfalso
    have hm := List.mem_of_getElem? hk
    simp [Op.ports] at hm
    try (rcases hm with rfl | ⟨t, _, rfl⟩ | rfl <;> cases hs)
    try (rcases hm with ⟨t, _, rfl⟩ | ⟨t, _, rfl⟩ | rfl <;> cases hs)
    try (rcases hm with ⟨t, _, rfl⟩ | rfl <;> cases hs)
    try (subst hm; cases hs)

/-- Where a static link comes from. -/
theorem static_source (hv : Valid C h) {l : Link} (hl : StaticLink h l) :
    (((∃ n s, h.ops l.src = .funcDefn n s) ∨ ∃ n s, h.ops l.src = .funcDecl n s) ∨
      (∃ t, h.ops l.dst = .loadConstant t) ∧ ∃ t, h.ops l.src = .const t) ∧
    ∃ p, h.hier.parent l.src = some p := by
  obtain ⟨kind, h1, h2, p, hp, _⟩ := hv.kinds l hl.1
  refine ⟨?_, p, hp⟩
  unfold srcKind at h1
  have hm := List.mem_of_getElem? h1
  rcases static_kind hl.2 with ⟨sig, h3⟩ | ⟨t, ht, h3⟩
  · rw [h3] at h2; cases h2
    left
    cases ho : h.ops l.src <;> rw [ho] at hm <;> simp [Op.ports] at hm
    · exact .inl ⟨_, _, rfl⟩
    · exact .inr ⟨_, _, rfl⟩
  · rw [h3] at h2; cases h2
    right
    refine ⟨⟨_, ht⟩, ?_⟩
    cases ho : h.ops l.src <;> rw [ho] at hm <;> simp [Op.ports] at hm
    exact ⟨_, rfl⟩

theorem valid_staticOk (ht : IsTree h) (hv : Valid C h) (hone : OneSource h) : StaticOk h := by
  refine ⟨hone, ?_, ?_⟩
  · intro l hl _
    rcases (static_source hv hl).1 with (h1 | h1) | ⟨_, h1⟩
    · exact .inl h1
    · exact .inr (.inl h1)
    · exact .inr (.inr h1)
  · intro l hl hne
    obtain ⟨h1, p, hp⟩ := static_source hv hl
    rcases h1 with h1 | ⟨h1, t, h2⟩
    · exact absurd (by rw [hp, func_atModule ht hv h1 hp]) hne
    · refine ⟨h1, ⟨t, h2⟩, fun e => ?_⟩
      have := hv.entrypoint
      rw [← e, h2] at this
      simp [Container, body] at this

/-- Every node is below a node at module level, or is the module. -/
theorem module_level (ht : IsTree h) {n : Nat} (hn : h.live n = true) (hne : n ≠ h.moduleRoot) :
    ∃ c, h.hier.parent c = some h.moduleRoot ∧ Above h.hier.parent n c := by
  obtain ⟨c, h1, h2⟩ := (ht.reaches_root n hn).last hne
  exact ⟨c, h2, h1⟩

/-- What has children at module level is a function. -/
theorem container_atModule (hv : Valid C h) (hm : h.ops h.moduleRoot = .module) {a q : Nat}
    (ha : h.hier.parent a = some h.moduleRoot) (hq : h.hier.parent q = some a) :
    ∃ n s, h.ops a = .funcDefn n s := by
  have h1 := hv.contains a _ ha
  have h2 := hv.contains q _ hq
  rw [hm] at h1
  cases ho : h.ops a <;> rw [ho] at h1 h2 <;> simp [MayContain, body] at h1 h2
  exact ⟨_, _, rfl⟩

/-- Nothing but static links leads out of the module level. -/
theorem valid_moduleLinks (ht : IsTree h) (hv : Valid C h) (hm : h.ops h.moduleRoot = .module) : ModuleLinks h := by
  intro l hl
  obtain ⟨kind, h1, h2, p, hp, hor⟩ := hv.kinds l hl
  have hpl := (ht.parent_live _ _ hp).2
  have hroot : p = h.moduleRoot → ∀ {q}, h.hier.parent l.dst = some q → kind.isStatic = true := by
    rintro rfl q hq
    have hc := hv.contains _ _ hp
    rw [hm] at hc
    have hmem := List.mem_of_getElem? h1
    cases ho : h.ops l.src <;> rw [ho] at hc hmem <;> simp [MayContain, Op.ports] at hc hmem
    all_goals subst hmem; rfl
  by_cases hpr : p = h.moduleRoot
  · subst hpr
    right
    rcases hor with hd | ⟨q, a, hq, hqa, hor⟩
    · exfalso
      have hst := hroot rfl hd
      have ho := kind_static h2 hst
      have hc := hv.contains _ _ hd
      rw [hm] at hc
      cases hop : h.ops l.dst <;> rw [hop] at hc ho <;> simp [MayContain, Ops.Op.ownStaticPort] at hc ho
    · have hst := hroot rfl hq
      have ho := kind_static h2 hst
      refine ⟨⟨hl, ho⟩, hp, ?_⟩
      rcases hor with ⟨_, ha⟩ | ⟨⟨t, rfl, _⟩, _⟩
      · obtain ⟨c, hc, hca⟩ : ∃ c, h.hier.parent c = some a ∧ Above h.hier.parent l.dst c := by
          obtain ⟨c, h3, h4⟩ := (Above.step hq hqa).last (by
            rintro e
            rw [e, ha] at hq; cases hq
            exact ht.acyclic _ _ ha hqa)
          exact ⟨c, h4, h3⟩
        obtain ⟨n, s, hf⟩ := container_atModule hv hm ha hc
        refine ⟨a, n, s, ha, hf, ?_, .step hq hqa⟩
        rintro e
        rw [e] at hq
        exact ht.acyclic _ _ hq hqa
      · cases hst
  · left
    obtain ⟨c, hc, hpc⟩ := module_level ht hpl hpr
    refine ⟨c, hc, .step hp hpc, ?_⟩
    rcases hor with hd | ⟨q, a, hq, hqa, hor⟩
    · exact .step hd hpc
    · rcases hor with ⟨_, ha⟩ | ⟨_, ⟨ha, _⟩ | ⟨g, sig, entry, rest, hap, hpg, hag, hcfg, _⟩⟩
      · exact .step hq (hqa.trans (.step ha hpc))
      · exact .step hq (hqa.trans (.step ha hpc))
      · refine .step hq (hqa.trans (.step hag ?_))
        rcases above_cases hpc with rfl | ⟨g', hg', hgc⟩
        · rw [hc] at hpg; cases hpg
          rw [hcfg] at hm; cases hm
        · rw [hpg] at hg'; cases hg'; exact hgc

end Verif.Patch
