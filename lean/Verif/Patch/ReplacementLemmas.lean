import Verif.Patch.Replacement
import Verif.Patch.InlineDfgValid

/-!
# Lemmas on checking a replacement
-/
namespace Verif.Patch

open Verif.Graph Verif.Ops Verif.Passes Verif.Validate Verif.Dataflow

variable {Meta : Type} {h : Hugr Ops.Op Meta}

theorem Vet.andThen_ok {α β : Type} {x : Vet α} {f : α → Vet β} {b : β} :
    x.andThen f = .ok b ↔ ∃ a, x = .ok a ∧ f a = .ok b := by
  cases x <;> simp [Vet.andThen]

theorem checkEach_ok {α : Type} {f : α → Vet Unit} : ∀ {l : List α}, checkEach f l = .ok () ↔ ∀ a ∈ l, f a = .ok ()
  | [] => by simp [checkEach]
  | a :: l => by
    rw [checkEach, Vet.andThen_ok, List.forall_mem_cons, ← checkEach_ok (l := l)]
    constructor
    · rintro ⟨⟨⟩, h1, h2⟩; exact ⟨h1, h2⟩
    · rintro ⟨h1, h2⟩; exact ⟨(), h1, h2⟩

theorem ensure_ok {b : Bool} {e : ReplaceError} : ensure b e = .ok () ↔ b = true := by
  unfold ensure
  split <;> simp_all

theorem Vet.unit_ok {x : Vet Unit} {f : Unit → Vet Unit} : x.andThen f = .ok () ↔ x = .ok () ∧ f () = .ok () := by
  rw [Vet.andThen_ok]
  constructor
  · rintro ⟨⟨⟩, h1, h2⟩; exact ⟨h1, h2⟩
  · rintro ⟨h1, h2⟩; exact ⟨(), h1, h2⟩

/-! ## Kinds of ports -/

theorem kindIs_true {f : Kind → Bool} {x : Run (Option Kind)} :
    kindIs f x = .ok true ↔ ∃ k, x = .ok (some k) ∧ f k = true := by
  match x with
  | .panic => simp [kindIs]
  | .ok none => simp [kindIs]
  | .ok (some k) => simp [kindIs]

theorem portKind_some {op : Ops.Op} {dir : Ops.Dir} {i : Nat} {k : Kind} (ht : op.tagOk = true) :
    op.portKind dir i = .ok (some k) ↔ (op.ports dir)[i]? = some k ∨
      ((op.ports dir).length ≤ i ∧ op.otherPortKind dir = some k) := by
  by_cases hi : i < (op.ports dir).length
  · rw [C10_port_kind op dir ht i hi]
    constructor
    · intro e; injection e with e; exact .inl e
    · rintro (e | ⟨e, _⟩)
      · rw [e]
      · omega
  · rw [C10_out_of_range_kind op dir ht i (by omega), List.getElem?_eq_none (by omega)]
    constructor
    · intro e; injection e with e; exact .inr ⟨by omega, e⟩
    · rintro (e | ⟨_, e⟩)
      · cases e
      · rw [e]

theorem other_kind (op : Ops.Op) (dir : Ops.Dir) : op.otherPortKind dir = none ∨ op.otherPortKind dir = some .stateOrder ∨
    op.otherPortKind dir = some .controlFlow := by
  cases op <;> cases dir <;> simp [Op.otherPortKind, Op.otherInput, Op.otherOutput]

theorem order_ports (op : Ops.Op) (dir : Ops.Dir) :
    op.otherPortKind dir = some .stateOrder ↔ .stateOrder ∈ op.ports dir := by
  cases op <;> cases dir <;> simp [Op.otherPortKind, Op.otherInput, Op.otherOutput, Op.ports]

theorem flow_out {op : Ops.Op} (ht : op.tagOk = true) {i : Nat} : op.portKind .outgoing i = .ok (some .controlFlow) ↔
    (∃ a b c, op = .dataflowBlock a b c) ∨ ∃ a, op = .exitBlock a := by
  rw [portKind_some ht]
  constructor
  · rintro (e | ⟨_, e⟩)
    · have := List.mem_of_getElem? e
      cases op <;> simp_all [Op.ports]
    · cases op <;> simp_all [Op.otherPortKind, Op.otherInput, Op.otherOutput]
  · rintro (⟨a, b, c, rfl⟩ | ⟨a, rfl⟩)
    · by_cases hi : i < c.length
      · left; simp [Op.ports, hi]
      · right; simpa [Op.ports, Op.otherPortKind, Op.otherInput, Op.otherOutput] using hi
    · right; simp [Op.ports, Op.otherPortKind, Op.otherInput, Op.otherOutput]

theorem flow_in {op : Ops.Op} (ht : op.tagOk = true) : op.portKind .incoming 0 = .ok (some .controlFlow) ↔
    (op.ports .incoming)[0]? = some .controlFlow := by
  rw [portKind_some ht]
  constructor
  · rintro (e | ⟨e1, e⟩)
    · exact e
    · cases op <;> simp_all [Op.ports, Op.otherPortKind, Op.otherInput, Op.otherOutput]
  · exact .inl

theorem value_port {op : Ops.Op} (ht : op.tagOk = true) {dir : Ops.Dir} {i : Nat} :
    kindIs Kind.isValue (op.portKind dir i) = .ok true ↔ ∃ t, (op.ports dir)[i]? = some (.value t) := by
  rw [kindIs_true]
  constructor
  · rintro ⟨k, hk, hv⟩
    rcases (portKind_some ht).1 hk with e | ⟨_, e⟩
    · cases k <;> simp [Kind.isValue] at hv
      exact ⟨_, e⟩
    · rcases other_kind op dir with e' | e' | e' <;> rw [e'] at e <;> cases e <;> cases hv
  · rintro ⟨t, e⟩
    exact ⟨_, (portKind_some ht).2 (.inl e), rfl⟩

theorem static_port {op : Ops.Op} (ht : op.tagOk = true) {dir : Ops.Dir} {i : Nat} :
    kindIs Kind.isStatic (op.portKind dir i) = .ok true ↔
      ∃ k, (op.ports dir)[i]? = some k ∧ ((∃ t, k = .const t) ∨ ∃ f, k = .function f) := by
  rw [kindIs_true]
  constructor
  · rintro ⟨k, hk, hv⟩
    rcases (portKind_some ht).1 hk with e | ⟨_, e⟩
    · refine ⟨k, e, ?_⟩
      cases k <;> simp [Kind.isStatic] at hv <;> simp
    · rcases other_kind op dir with e' | e' | e' <;> rw [e'] at e <;> cases e <;> cases hv
  · rintro ⟨k, e, hk⟩
    refine ⟨_, (portKind_some ht).2 (.inl e), ?_⟩
    rcases hk with ⟨t, rfl⟩ | ⟨f, rfl⟩ <;> rfl

theorem flow_kind {x : Run (Option Kind)} :
    kindIs (fun k => decide (k = .controlFlow)) x = .ok true ↔ x = .ok (some .controlFlow) := by
  rw [kindIs_true]
  constructor
  · rintro ⟨k, e, hk⟩
    rw [e, of_decide_eq_true hk]
  · intro e
    exact ⟨_, e, by decide⟩

theorem ensure_kind {x : Vet Bool} {e : ReplaceError} : (x.andThen fun b => ensure b e) = .ok () ↔ x = .ok true := by
  rw [Vet.andThen_ok]
  constructor
  · rintro ⟨b, h1, h2⟩
    rw [h1, ensure_ok.1 h2]
  · intro e
    exact ⟨_, e, rfl⟩

theorem checkSrc_ok {which : WhichEdge} {e : NewEdge} (ht : (h.ops e.src).tagOk = true) :
    checkSrc h which e = .ok () ↔ SrcFits h e := by
  unfold checkSrc SrcFits
  rw [ensure_kind]
  cases e.kind with
  | order => simpa [srcKindOk] using order_ports _ _
  | value s t => exact value_port ht
  | static s t => exact static_port ht
  | controlFlow s => exact flow_kind.trans (flow_out ht)

theorem checkTgt_ok {which : WhichEdge} {e : NewEdge} (ht : (h.ops e.tgt).tagOk = true) :
    checkTgt h which e = .ok () ↔ TgtFits h e := by
  unfold checkTgt TgtFits
  rw [ensure_kind]
  cases e.kind with
  | order => simpa [tgtKindOk] using order_ports _ _
  | value s t => exact value_port ht
  | static s t => exact static_port ht
  | controlFlow s => exact flow_kind.trans (flow_in ht)

/-! ## The walk -/

/-- What the walk gets to from a node. -/
def Gets (h : Hugr Ops.Op Meta) (T : List Nat) (n x : Nat) : Prop :=
  Above h.hier.parent x n ∧ ∀ v ∈ T, x ≠ v → Above h.hier.parent x v → ¬ Above h.hier.parent v n

/-- None is inside another. -/
def Apart (h : Hugr Ops.Op Meta) (q : List Nat) : Prop := ∀ a ∈ q, ∀ b ∈ q, Above h.hier.parent a b → a = b

theorem removedLoop_nodup : ∀ {fuel : Nat} {q T R : List Nat} {s}, removedLoop h fuel q T R = .ok s →
    q.Nodup ∧ ∀ n ∈ q, n ∉ R
  | 0, _, _, _, _, e => by simp [removedLoop] at e
  | _ + 1, [], _, _, _, _ => by simp
  | fuel + 1, n :: q, T, R, s, e => by
    simp only [removedLoop] at e
    by_cases hR : n ∈ R
    · rw [if_pos hR] at e; cases e
    rw [if_neg hR] at e
    have key : q.Nodup ∧ ∀ m ∈ q, m ∉ n :: R := by
      by_cases hT : n ∈ T
      · rw [if_pos hT] at e
        exact removedLoop_nodup e
      · rw [if_neg hT] at e
        obtain ⟨h1, h2⟩ := removedLoop_nodup e
        exact ⟨(List.nodup_append.1 h1).1, fun m hm => h2 m (List.mem_append_left _ hm)⟩
    refine ⟨List.nodup_cons.2 ⟨fun hn => key.2 n hn List.mem_cons_self, key.1⟩, ?_⟩
    intro m hm
    rcases List.mem_cons.1 hm with rfl | hm
    · exact hR
    · exact fun hr => key.2 m hm (List.mem_cons_of_mem _ hr)

theorem gets_stop (ht : IsTree h) {T : List Nat} {n x : Nat} (hn : n ∈ T) : Gets h T n x ↔ x = n := by
  constructor
  · rintro ⟨h1, h2⟩
    by_contra hx
    exact h2 n hn hx h1 (.refl n)
  · rintro rfl
    exact ⟨.refl _, fun v _ hv h1 h2 => hv (Above.antisymm ht.acyclic h1 h2)⟩

theorem gets_go (ht : IsTree h) {T : List Nat} {n x : Nat} (hn : n ∉ T) :
    Gets h T n x ↔ x = n ∨ ∃ c ∈ h.children n, Gets h T c x := by
  constructor
  · rintro ⟨h1, h2⟩
    by_cases hx : x = n
    · exact .inl hx
    obtain ⟨c, hc, hp⟩ := h1.last hx
    exact .inr ⟨c, (ht.child_iff n c).2 hp, hc, fun v hv hne ha hb => h2 v hv hne ha (hb.trans (.of_parent hp))⟩
  · rintro (rfl | ⟨c, hc, h1, h2⟩)
    · exact ⟨.refl _, fun v _ hv h1 h2 => hv (Above.antisymm ht.acyclic h1 h2)⟩
    · have hp := (ht.child_iff n c).1 hc
      refine ⟨h1.trans (.of_parent hp), fun v hv hne ha hb => ?_⟩
      have hvn : v ≠ n := by rintro rfl; exact hn hv
      obtain ⟨c', hc', hp'⟩ := hb.last hvn
      rw [same_child ht (ha.trans hc') h1 hp' hp] at hc'
      exact h2 v hv hne ha hc'

theorem gets_erase {T : List Nat} (hT : T.Nodup) {n m x : Nat} (hn : ¬ Above h.hier.parent n m) :
    Gets h (T.erase n) m x ↔ Gets h T m x := by
  constructor
  · rintro ⟨h1, h2⟩
    refine ⟨h1, fun v hv hne ha hb => ?_⟩
    refine h2 v ((hT.mem_erase_iff).2 ⟨?_, hv⟩) hne ha hb
    rintro rfl
    exact hn hb
  · rintro ⟨h1, h2⟩
    exact ⟨h1, fun v hv => h2 v (List.mem_of_mem_erase hv)⟩

theorem removedLoop_spec (ht : IsTree h) : ∀ (fuel : Nat) (q T R : List Nat), q.Nodup → Apart h q → T.Nodup →
    (∀ n ∈ q, h.live n = true) → R.Nodup → (∀ n ∈ R, h.live n = true) →
    (∀ n ∈ q, ∀ x ∈ R, ¬ Above h.hier.parent x n) → h.cap + 1 ≤ fuel + R.length →
    ∃ R' T', removedLoop h fuel q T R = .ok (R', T') ∧ (∀ x, x ∈ R' ↔ x ∈ R ∨ ∃ n ∈ q, Gets h T n x) ∧
      ∀ x, x ∈ T' ↔ x ∈ T ∧ ¬ ∃ n ∈ q, Gets h T n x := by
  intro fuel
  induction fuel with
  | zero =>
    intro q T R _ _ _ _ hR hRl _ hf
    have := nodup_live_length ht hR hRl
    omega
  | succ fuel ih =>
    intro q T R hq hap hT hql hR hRl hd hf
    match q, hq, hap, hql, hd with
    | [], _, _, _, _ => exact ⟨R, T, by simp [removedLoop], by simp, by simp⟩
    | n :: q, hq, hap, hql, hd =>
      have hnR : n ∉ R := fun e => hd n List.mem_cons_self n e (.refl n)
      obtain ⟨hnq, hq'⟩ := List.nodup_cons.1 hq
      have hR' : (n :: R).Nodup := List.nodup_cons.2 ⟨hnR, hR⟩
      have hRl' : ∀ m ∈ n :: R, h.live m = true := by
        intro m hm
        rcases List.mem_cons.1 hm with rfl | hm
        · exact hql _ List.mem_cons_self
        · exact hRl m hm
      have off : ∀ m ∈ q, ¬ Above h.hier.parent n m := by
        intro m hm ha
        have := hap n List.mem_cons_self m (List.mem_cons_of_mem _ hm) ha
        exact hnq (this ▸ hm)
      have off' : ∀ m ∈ q, ¬ Above h.hier.parent m n := by
        intro m hm ha
        have := hap m (List.mem_cons_of_mem _ hm) n List.mem_cons_self ha
        exact hnq (this ▸ hm)
      have hf' : h.cap + 1 ≤ fuel + (n :: R).length := by simp only [List.length_cons]; omega
      have hdq : ∀ m ∈ q, ∀ x ∈ n :: R, ¬ Above h.hier.parent x m := by
        intro m hm x hx
        rcases List.mem_cons.1 hx with rfl | hx
        · exact off m hm
        · exact hd m (List.mem_cons_of_mem _ hm) x hx
      simp only [removedLoop]
      rw [if_neg hnR]
      by_cases hnT : n ∈ T
      · rw [if_pos hnT]
        obtain ⟨R', T', e, h1, h2⟩ := ih q (T.erase n) (n :: R) hq'
          (fun a ha b hb => hap a (List.mem_cons_of_mem _ ha) b (List.mem_cons_of_mem _ hb)) (hT.erase n)
          (fun m hm => hql m (List.mem_cons_of_mem _ hm)) hR' hRl' hdq hf'
        have hg : ∀ x, (∃ m ∈ q, Gets h (T.erase n) m x) ↔ ∃ m ∈ q, Gets h T m x := by
          intro x
          constructor <;> rintro ⟨m, hm, hx⟩
          · exact ⟨m, hm, (gets_erase hT (off m hm)).1 hx⟩
          · exact ⟨m, hm, (gets_erase hT (off m hm)).2 hx⟩
        refine ⟨R', T', e, fun x => ?_, fun x => ?_⟩
        · rw [h1, hg, List.mem_cons]
          simp only [List.mem_cons, exists_eq_or_imp, gets_stop ht hnT]
          tauto
        · rw [h2, hg, hT.mem_erase_iff]
          simp only [List.mem_cons, exists_eq_or_imp, gets_stop ht hnT]
          constructor
          · rintro ⟨⟨a, b⟩, c⟩
            exact ⟨b, fun d => d.elim a c⟩
          · rintro ⟨b, d⟩
            exact ⟨⟨fun a => d (.inl a), b⟩, fun c => d (.inr c)⟩
      · rw [if_neg hnT]
        have hc : ∀ c ∈ h.children n, h.hier.parent c = some n := fun c hc => (ht.child_iff n c).1 hc
        have hmix : ∀ c ∈ h.children n, ∀ m ∈ q, ¬ Above h.hier.parent c m ∧ ¬ Above h.hier.parent m c := by
          intro c hcc m hm
          constructor
          · intro ha
            rcases above_cases ha with rfl | ⟨p, hp, ha⟩
            · exact off' _ hm (.of_parent (hc _ hcc))
            · rw [hc c hcc] at hp
              cases hp
              exact off m hm ha
          · intro ha
            exact off' m hm (ha.trans (.of_parent (hc c hcc)))
        obtain ⟨R', T', e, h1, h2⟩ := ih (q ++ h.children n) T (n :: R)
          (List.nodup_append.2 ⟨hq', ht.child_once n, by
            rintro a ha b hb rfl
            exact (hmix a hb a ha).1 (.refl a)⟩)
          (by
            intro a ha b hb hab
            rcases List.mem_append.1 ha with ha | ha <;> rcases List.mem_append.1 hb with hb | hb
            · exact hap a (List.mem_cons_of_mem _ ha) b (List.mem_cons_of_mem _ hb) hab
            · exact absurd hab (hmix b hb a ha).2
            · exact absurd hab (hmix a ha b hb).1
            · exact same_child ht (.refl a) hab (hc a ha) (hc b hb))
          hT
          (by
            intro m hm
            rcases List.mem_append.1 hm with hm | hm
            · exact hql m (List.mem_cons_of_mem _ hm)
            · exact (ht.parent_live m n (hc m hm)).1)
          hR' hRl'
          (by
            intro m hm x hx
            rcases List.mem_append.1 hm with hm | hm
            · exact hdq m hm x hx
            · intro ha
              rcases List.mem_cons.1 hx with rfl | hx
              · exact ht.acyclic m x (hc m hm) ha
              · exact hd n List.mem_cons_self x hx (ha.trans (.of_parent (hc m hm))))
          hf'
        have hg : ∀ x, (x = n ∨ ∃ m ∈ q ++ h.children n, Gets h T m x) ↔ ∃ m ∈ n :: q, Gets h T m x := by
          intro x
          simp only [List.mem_cons, exists_eq_or_imp, gets_go ht hnT, List.mem_append]
          constructor
          · rintro (e | ⟨m, hm | hm, hx⟩)
            · exact .inl (.inl e)
            · exact .inr ⟨m, hm, hx⟩
            · exact .inl (.inr ⟨m, hm, hx⟩)
          · rintro ((e | ⟨m, hm, hx⟩) | ⟨m, hm, hx⟩)
            · exact .inl e
            · exact .inr ⟨m, .inr hm, hx⟩
            · exact .inr ⟨m, .inl hm, hx⟩
        refine ⟨R', T', e, fun x => ?_, fun x => ?_⟩
        · rw [h1, ← hg, List.mem_cons]
          tauto
        · rw [h2, ← hg]
          constructor
          · rintro ⟨a, b⟩
            refine ⟨a, ?_⟩
            rintro (rfl | c)
            · exact hnT a
            · exact b c
          · rintro ⟨a, b⟩
            exact ⟨a, fun c => b (.inr c)⟩

/-! ## What is removed -/

section Removal
variable {r : Replacement Meta} {p : Nat}

theorem siblings_apart (ht : IsTree h) (hs : ∀ n ∈ r.removal, h.hier.parent n = some p) : Apart h r.removal :=
  fun a ha b hb hab => same_child ht (.refl a) hab (hs a ha) (hs b hb)

/-- What is adopted is where it has to be. -/
def AdopteesOk (h : Hugr Ops.Op Meta) (r : Replacement Meta) : Prop :=
  ∀ v ∈ r.adopted, (∃ s ∈ r.removal, Above h.hier.parent v s) ∧
    ∀ u ∈ r.adopted, u ≠ v → ¬ Above h.hier.parent v u

theorem adoptees_iff (ht : IsTree h) (hs : ∀ n ∈ r.removal, h.hier.parent n = some p) :
    (∀ v ∈ r.adopted, ∃ n ∈ r.removal, Gets h r.adopted n v) ↔ AdopteesOk h r := by
  constructor
  · intro hv v hvm
    obtain ⟨n, hn, h1, h2⟩ := hv v hvm
    refine ⟨⟨n, hn, h1⟩, fun u hu hne ha => ?_⟩
    obtain ⟨m, hm, h3, _⟩ := hv u hu
    have := same_child ht (ha.trans h3) h1 (hs m hm) (hs n hn)
    subst this
    exact h2 u hu (Ne.symm hne) ha h3
  · intro hv v hvm
    obtain ⟨⟨n, hn, h1⟩, h2⟩ := hv v hvm
    exact ⟨n, hn, h1, fun u hu hne ha => absurd ha (h2 u hu (Ne.symm hne))⟩

theorem removes_iff (ht : IsTree h) (hs : ∀ n ∈ r.removal, h.hier.parent n = some p) (ha : AdopteesOk h r) (x : Nat) :
    (∃ n ∈ r.removal, Gets h r.adopted n x) ↔ Removes h r x := by
  constructor
  · rintro ⟨n, hn, h1, h2⟩
    refine ⟨⟨n, hn, h1⟩, fun v hv hne hav => ?_⟩
    obtain ⟨⟨m, hm, h3⟩, _⟩ := ha v hv
    have := same_child ht (hav.trans h3) h1 (hs m hm) (hs n hn)
    subst this
    exact h2 v hv hne hav h3
  · rintro ⟨⟨n, hn, h1⟩, h2⟩
    exact ⟨n, hn, h1, fun v hv hne hav => absurd hav (h2 v hv hne)⟩

/-- The check of the adoptions succeeds just if they are right, and gives what is removed. -/
theorem getRemoved_ok (ht : IsTree h) (hs : ∀ n ∈ r.removal, h.hier.parent n = some p) (R : List Nat) :
    getRemoved h r = .ok R →
      r.removal.Nodup ∧ (∀ a ∈ r.adoptions, r.replacement.live a.1 = true ∧ Container (r.replacement.ops a.1) ∧
        r.replacement.children a.1 = []) ∧ r.adopted.Nodup ∧ AdopteesOk h r ∧ ∀ x, x ∈ R ↔ Removes h r x := by
  intro e
  unfold getRemoved at e
  rw [Vet.andThen_ok] at e
  obtain ⟨⟨⟩, e1, e⟩ := e
  rw [Vet.andThen_ok] at e
  obtain ⟨⟨⟩, e2, e⟩ := e
  rw [Vet.andThen_ok] at e
  obtain ⟨⟨R1, T1⟩, e3, e⟩ := e
  rw [Vet.andThen_ok] at e
  obtain ⟨⟨⟩, e4, e⟩ := e
  cases e
  have hn := (removedLoop_nodup e3).1
  have hT : r.adopted.Nodup := of_decide_eq_true (ensure_ok.1 e2)
  obtain ⟨R', T', e', h1, h2⟩ := removedLoop_spec ht (h.cap + 1) r.removal r.adopted [] hn (siblings_apart ht hs) hT
    (fun n hn => (ht.parent_live n p (hs n hn)).1) List.nodup_nil (by simp) (by simp) (by simp)
  rw [show r.adoptions.map Prod.snd = r.adopted from rfl, e'] at e3
  injection e3 with e3
  injection e3 with ea eb
  subst ea eb
  have hemp : T' = [] := List.isEmpty_iff.1 (ensure_ok.1 e4)
  have hok : AdopteesOk h r := by
    refine (adoptees_iff ht hs).1 fun v hv => ?_
    by_contra hc
    have := (h2 v).2 ⟨hv, hc⟩
    rw [hemp] at this
    cases this
  refine ⟨hn, ?_, hT, hok, fun x => ?_⟩
  · intro a ha
    have := ensure_ok.1 (checkEach_ok.1 e1 a ha)
    simp only [Bool.and_eq_true, Bool.not_eq_true', List.isEmpty_iff] at this
    exact ⟨this.1.1, (container_iff _).1 this.1.2, this.2⟩
  · rw [h1, ← removes_iff ht hs hok]
    simp

theorem getRemoved_of (ht : IsTree h) (hs : ∀ n ∈ r.removal, h.hier.parent n = some p) (hn : r.removal.Nodup)
    (had : ∀ a ∈ r.adoptions, r.replacement.live a.1 = true ∧ Container (r.replacement.ops a.1) ∧
      r.replacement.children a.1 = []) (hT : r.adopted.Nodup) (hok : AdopteesOk h r) : ∃ R, getRemoved h r = .ok R := by
  obtain ⟨R', T', e', h1, h2⟩ := removedLoop_spec ht (h.cap + 1) r.removal r.adopted [] hn (siblings_apart ht hs) hT
    (fun n hn => (ht.parent_live n p (hs n hn)).1) List.nodup_nil (by simp) (by simp) (by simp)
  refine ⟨R', ?_⟩
  unfold getRemoved
  rw [Vet.andThen_ok]
  refine ⟨(), checkEach_ok.2 fun a ha => ensure_ok.2 ?_, ?_⟩
  · obtain ⟨a1, a2, a3⟩ := had a ha
    rw [a1, (container_iff _).2 a2, a3]
    rfl
  rw [Vet.andThen_ok]
  refine ⟨(), ensure_ok.2 (decide_eq_true hT), ?_⟩
  rw [Vet.andThen_ok]
  refine ⟨(R', T'), e', ?_⟩
  rw [Vet.andThen_ok]
  refine ⟨(), ensure_ok.2 (List.isEmpty_iff.2 ?_), rfl⟩
  apply List.eq_nil_iff_forall_not_mem.2
  intro v hv
  obtain ⟨a, b⟩ := (h2 v).1 hv
  exact b ((adoptees_iff ht hs).2 hok v a)

end Removal

/-! ## Links that are replaced -/

theorem descendsFrom_spec (ht : IsTree h) (legal : List Nat) : ∀ (fuel : Nat) (D : List Nat) (n : Nat), D.Nodup →
    (∀ d ∈ D, h.live d = true ∧ d ≠ n ∧ Above h.hier.parent d n) → h.cap + 1 ≤ fuel + D.length →
    (descendsFrom h legal fuel n = true ↔ ∃ y ∈ legal, Above h.hier.parent n y) := by
  intro fuel
  induction fuel with
  | zero =>
    intro D n hD hd hf
    have := nodup_live_length ht hD (fun m hm => (hd m hm).1)
    omega
  | succ fuel ih =>
    intro D n hD hd hf
    simp only [descendsFrom]
    by_cases hl : n ∈ legal
    · rw [if_pos hl]
      exact ⟨fun _ => ⟨n, hl, .refl n⟩, fun _ => rfl⟩
    rw [if_neg hl, Validate.getParent_eq ht]
    cases hp : h.hier.parent n with
    | none =>
      simp only [Bool.false_eq_true, false_iff]
      rintro ⟨y, hy, ha⟩
      rcases above_cases ha with rfl | ⟨q, hq, _⟩
      · exact hl hy
      · rw [hp] at hq; cases hq
    | some q =>
      simp only []
      rw [ih (n :: D) q (List.nodup_cons.2 ⟨fun e => (hd n e).2.1 rfl, hD⟩) (by
        intro d hdm
        rcases List.mem_cons.1 hdm with rfl | hdm
        · refine ⟨(ht.parent_live _ _ hp).1, ?_, .of_parent hp⟩
          rintro rfl
          exact ht.acyclic _ _ hp (.refl _)
        · obtain ⟨h1, h2, h3⟩ := hd d hdm
          refine ⟨h1, ?_, h3.trans (.of_parent hp)⟩
          rintro rfl
          exact ht.acyclic _ _ hp h3) (by simp only [List.length_cons]; omega)]
      constructor
      · rintro ⟨y, hy, ha⟩
        exact ⟨y, hy, .step hp ha⟩
      · rintro ⟨y, hy, ha⟩
        rcases above_cases ha with rfl | ⟨q', hq', ha⟩
        · exact absurd hy hl
        · rw [hp] at hq'
          cases hq'
          exact ⟨y, hy, ha⟩

theorem checkExisting_ok (ht : IsTree h) {r : Replacement Meta} {p : Nat}
    (hs : ∀ n ∈ r.removal, h.hier.parent n = some p) (hok : AdopteesOk h r) {R : List Nat}
    (hR : ∀ x, x ∈ R ↔ Removes h r x) {which : WhichEdge} {e : NewEdge} :
    checkExisting h R which e = .ok () ↔ TakesPlace h r e := by
  have hd : ∀ x, (descendsFrom h R (h.cap + 1) x = true ↔ ∃ s ∈ r.removal, Above h.hier.parent x s) := by
    intro x
    rw [descendsFrom_spec ht R (h.cap + 1) [] x List.nodup_nil (by simp) (by simp)]
    constructor
    · rintro ⟨y, hy, ha⟩
      obtain ⟨⟨s, hs1, hs2⟩, _⟩ := (hR y).1 hy
      exact ⟨s, hs1, ha.trans hs2⟩
    · rintro ⟨s, hs1, ha⟩
      refine ⟨s, (hR s).2 ((removes_iff ht hs hok s).1 ⟨s, hs1, .refl s, ?_⟩), ha⟩
      exact fun v _ hne h1 h2 => hne (Above.antisymm ht.acyclic h1 h2)
  have key : ∀ t, ((match singleLinkedOutput h e.tgt t with
      | some s => ensure (descendsFrom h R (h.cap + 1) s.1) (.noRemovedEdge which)
      | none => .err (.noRemovedEdge which)) = .ok () ↔
      ∃ l s, linksTo h e.tgt t = [l] ∧ s ∈ r.removal ∧ Above h.hier.parent l.src s) := by
    intro t
    have hl : h.linkedOutputs e.tgt t = (linksTo h e.tgt t).map fun l => (l.src, l.srcPort) := rfl
    unfold singleLinkedOutput
    rw [hl]
    rcases hx : linksTo h e.tgt t with _ | ⟨l, _ | ⟨l', ls⟩⟩
    · simp
    · simp only [List.map_cons, List.map_nil]
      rw [ensure_ok, hd]
      constructor
      · rintro ⟨s, h1, h2⟩; exact ⟨l, s, rfl, h1, h2⟩
      · rintro ⟨l', s, e', h1, h2⟩
        cases e'
        exact ⟨s, h1, h2⟩
    · simp
  unfold checkExisting TakesPlace
  cases e.kind with
  | order => simp
  | value s t => exact key t
  | static s t => exact key t
  | controlFlow s => simp

/-! ## The parent -/

theorem checkParent_ok (ht : IsTree h) {r : Replacement Meta} {p : Nat} : checkParent h r = .ok p ↔
    r.removal ≠ [] ∧ (∀ n ∈ r.removal, h.hier.parent n = some p) ∧
      (h.ops p).opTag = (r.replacement.ops r.replacement.entrypoint).opTag := by
  have hmem : ∀ x, x ∈ (r.removal.map h.getParent).dedup ↔ ∃ n ∈ r.removal, h.hier.parent n = x := by
    intro x
    rw [List.mem_dedup, List.mem_map]
    simp only [Validate.getParent_eq ht]
  have hnd := List.nodup_dedup (r.removal.map h.getParent)
  unfold checkParent
  generalize hd : (r.removal.map h.getParent).dedup = D at *
  have one : (r.removal ≠ [] ∧ ∀ n ∈ r.removal, h.hier.parent n = some p) ↔ D = [some p] := by
    constructor
    · rintro ⟨h1, h2⟩
      have hall : ∀ x ∈ D, x = some p := by
        intro x hx
        obtain ⟨n, hn, rfl⟩ := (hmem x).1 hx
        exact h2 n hn
      obtain ⟨n, hn⟩ := List.exists_mem_of_ne_nil _ h1
      have hin : some p ∈ D := (hmem _).2 ⟨n, hn, h2 n hn⟩
      match D, hnd, hall, hin with
      | [x], _, hall, _ => rw [hall x List.mem_cons_self]
      | x :: y :: _, hnd, hall, _ =>
        have e1 := hall x List.mem_cons_self
        have e2 := hall y (List.mem_cons_of_mem _ List.mem_cons_self)
        subst e1
        subst e2
        simp at hnd
    · intro e
      subst e
      constructor
      · intro e
        have := (hmem (some p)).1 List.mem_cons_self
        rw [e] at this
        simp at this
      · intro n hn
        have := (hmem _).2 ⟨n, hn, rfl⟩
        simpa using this
  rw [← and_assoc, one]
  constructor
  · intro e
    split at e
    · cases e
    · split at e
      · cases e
        exact ⟨rfl, by assumption⟩
      · cases e
    · cases e
  · rintro ⟨rfl, hk⟩
    simp only [if_pos hk]

end Verif.Patch
