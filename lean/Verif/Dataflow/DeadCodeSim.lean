import Verif.Dataflow.ConstFoldProps
import Verif.Passes.DeadCodeProps

/-!
# Dead code elimination preserves executions
-/
namespace Verif.Dataflow

open Verif.Graph Verif.Ops Verif.Passes Verif.Validate

variable {Meta W E : Type}

/-- What dead code elimination needs of a Hugr. A valid Hugr whose entrypoint is not a basic block is
like this, and constant folding keeps it like this. -/
structure Formed (h : Hugr Ops.Op Meta) : Prop where
  links : LinksOk h
  tags : TagsOk h
  edges : EdgesLocal h
  /-- Bodies begin with input and output nodes. -/
  io : ∀ p, h.live p = true → (body (h.ops p)).isSome = true → ∃ i o, HasIO h p i o ∧
    Structural (h.ops i) ∧ Structural (h.ops o)
  cases : ∀ n rows other outs c, h.ops n = .conditional rows other outs → c ∈ h.children n →
    ∃ sig, h.ops c = .case sig
  entry : ∀ n sig, h.live n = true → h.ops n = .cfg sig → ∃ e rest x y z, h.children n = e :: rest ∧
    h.ops e = .dataflowBlock x y z
  succ : ∀ l ∈ h.links, ∀ x y z, h.ops l.src = .dataflowBlock x y z → Structural (h.ops l.dst) ∧
    ∃ p, h.hier.parent l.src = some p ∧ h.hier.parent l.dst = some p
  /-- No edge leaves the entrypoint. -/
  inside : ∀ l ∈ h.links, Above h.hier.parent l.src h.entrypoint → l.src ≠ h.entrypoint →
    Above h.hier.parent l.dst h.entrypoint

theorem tagOk_signature {op : Ops.Op} (h : op.tagOk = true) : op.dataflowSignature ≠ .panic := by
  obtain ⟨s, hs, _⟩ := ports_eq op .incoming h
  rw [hs]; simp

/-- A linear result is an outgoing port for a value that may not be copied. -/
theorem linearOut_kind {op : Ops.Op} (h : op.tagOk = true) {port : Nat} (hl : LinearOut op port) :
    ∃ t, (op.ports .outgoing)[port]? = some (.value t) ∧ t.copyable = false := by
  obtain ⟨sig, t, hs, ho, hb⟩ := hl
  obtain ⟨s, hs', hp, _⟩ := ports_eq op .outgoing h
  rw [hs] at hs'
  simp only [Run.ok.injEq] at hs'
  subst hs'
  refine ⟨t, ?_, by simp [Types.Ty.copyable, hb, Types.Bound.contains]⟩
  rw [hp, List.append_assoc, List.getElem?_append_left]
  · simp [sigRow, ho]
  · simp only [Option.getD_some, sigRow, List.length_map]
    exact (List.getElem?_eq_some_iff.1 ho).1

theorem above_cases {parent : Nat → Option Nat} {a b : Nat} (h : Above parent a b) :
    a = b ∨ ∃ p, parent a = some p ∧ Above parent p b := by
  cases h with
  | refl => exact .inl rfl
  | step hp h => exact .inr ⟨_, hp, h⟩

section Valid
variable {C : Validate.Context} {h : Hugr Ops.Op Meta}

theorem valid_linksOk (ht : IsTree h) (hv : Valid C h) : LinksOk h := by
  intro l hl
  obtain ⟨h1, h2⟩ := link_live ht hv hl
  obtain ⟨kind, hk1, hk2, _⟩ := hv.kinds l hl
  refine ⟨h1, ?_, h2, ?_⟩
  · rw [(hv.ports _ h1).2]; exact (List.getElem?_eq_some_iff.1 hk1).1
  · rw [(hv.ports _ h2).1]; exact (List.getElem?_eq_some_iff.1 hk2).1

/-- A valid Hugr has local edges. -/
theorem valid_local (ht : IsTree h) (hv : Valid C h) : EdgesLocal h := by
  constructor
  · intro l hl q hq
    obtain ⟨kind, hk1, hk2, p, hp, hor⟩ := hv.kinds l hl
    rw [hq] at hp
    cases hp
    rcases hor with hor | ⟨r, a, hr, hra, ⟨_, ha⟩ | ⟨_, ⟨ha, _⟩ | ⟨g, sig, entry, rest, hne, hpg, hag, hg, _⟩⟩⟩
    · exact .inl (.of_parent hor)
    · exact .inl (.step hr (hra.trans (.of_parent ha)))
    · exact .inl (.step hr (hra.trans (.of_parent ha)))
    · have hc := hv.contains _ _ hpg
      rw [hg] at hc
      have hc2 := hv.contains _ _ hq
      cases hop : h.ops q with
      | dataflowBlock x y z =>
        exact .inr ⟨x, y, z, g, rfl, hpg, .step hr (hra.trans (.of_parent hag))⟩
      | exitBlock _ => rw [hop] at hc2; simp [MayContain, body] at hc2
      | const _ => rw [hop] at hc2; simp [MayContain, body] at hc2
      | _ => rw [hop] at hc; exact hc.elim
  · intro l hl hlin
    obtain ⟨t, hk, hcopy⟩ := linearOut_kind (hv.tags _ (link_live ht hv hl).1) hlin
    obtain ⟨kind, hk1, hk2, p, hp, hor⟩ := hv.kinds l hl
    unfold srcKind at hk1
    rw [hk] at hk1
    cases hk1
    rcases hor with hor | ⟨r, a, hr, hra, ⟨hs, _⟩ | ⟨⟨t', ht', hc⟩, _⟩⟩
    · rw [hor, hp]
    · simp [Kind.isStatic] at hs
    · cases ht'
      rw [hcopy] at hc; cases hc

theorem body_children (hv : Valid C h) {p : Nat} (hp : h.live p = true)
    (hb : (body (h.ops p)).isSome = true) : ∃ i o ti tj, HasIO h p i o ∧ h.ops i = .input ti ∧
      h.ops o = .output tj := by
  have hc := hv.children p hp
  unfold ChildrenOk at hc
  cases hop : h.ops p <;> rw [hop] at hb hc <;> simp only [body, Option.isSome_some,
    Option.isSome_none, Bool.false_eq_true] at hb hc <;>
  · obtain ⟨i, o, rest, h1, h2, h3, _⟩ := hc
    exact ⟨i, o, _, _, ⟨rest, h1⟩, h2, h3⟩

theorem valid_formed (ht : IsTree h) (hv : Valid C h)
    (hentry : ∀ x y z, h.ops h.entrypoint ≠ .dataflowBlock x y z) : Formed h := by
  refine ⟨valid_linksOk ht hv, fun n hn => tagOk_signature (hv.tags n hn), valid_local ht hv, ?_, ?_, ?_,
    ?_, ?_⟩
  · intro p hp hb
    obtain ⟨i, o, ti, tj, hio, hi, ho⟩ := body_children hv hp hb
    exact ⟨i, o, hio, by simp [Structural, hi], by simp [Structural, ho]⟩
  · intro n rows other outs c hop hc
    have := hv.contains _ _ (child_parent ht hc)
    rw [hop] at this
    cases hq : h.ops c with
    | case sig => exact ⟨sig, rfl⟩
    | _ => rw [hq] at this; exact this.elim
  · intro n sig hn hop
    have := hv.children n hn
    unfold ChildrenOk at this
    rw [hop] at this
    obtain ⟨e, x, rest, o, r, h1, h2, _⟩ := this
    exact ⟨e, x :: rest, _, _, _, h1, h2⟩
  · intro l hl x y z hop
    obtain ⟨⟨p, hp, hp2⟩, _⟩ := block_link ht hv hl hop
    refine ⟨?_, p, hp, hp2⟩
    have := hv.contains _ _ hp
    rw [hop] at this
    cases hq : h.ops p with
    | cfg sig =>
      obtain ⟨_, _, _, _, _, _, h1 | h1⟩ := hv.blocks l hl p sig hq ((ht.child_iff _ _).2 hp)
        ((ht.child_iff _ _).2 hp2)
      · obtain ⟨o, r, h1⟩ := h1
        rw [h1]; simp [Structural]
      · rw [h1]; simp [Structural]
    | _ => rw [hq] at this; simp [MayContain, DataflowChild] at this
  · intro l hl hab hne
    obtain ⟨q, hq, hab⟩ := (above_cases hab).resolve_left hne
    rcases (valid_local ht hv).source l hl q hq with h1 | ⟨x, y, z, c, hop, hc, h1⟩
    · exact h1.trans hab
    · rcases above_cases hab with he | ⟨c', hc', hab'⟩
      · exact absurd (he ▸ hop) (hentry x y z)
      · rw [hc] at hc'; cases hc'; exact h1.trans hab'

end Valid

/-! ## Executions -/

section Elim
variable {h g : Hugr Ops.Op Meta} {callback : Nat → PreserveNode} {entries : List Nat}

/-- The nodes that are left. -/
structure Left (h : Hugr Ops.Op Meta) (g : Hugr Ops.Op Meta) : Prop where
  live : ∀ n, g.live n = true → h.live n = true
  ops : ∀ n, (h.live n = true → g.live n = true) → g.ops n = h.ops n
  gone : ∀ n, g.ops n = h.ops n ∨ g.ops n = .module
  parent : ∀ n p, g.live n = true → h.hier.parent n = some p → g.live p = true
  parent_eq : ∀ n p, g.live n = true → (g.hier.parent n = some p ↔ h.hier.parent n = some p)
  children : ∀ m, g.live m = true → g.hier.children m = (h.hier.children m).filter fun c => g.live c
  structural : ∀ m c, g.live m = true → c ∈ h.children m → Structural (h.ops c) → g.live c = true
  source : ∀ l ∈ h.links, g.live l.dst = true → g.live l.src = true
  links : g.links = h.links.filter fun l => g.live l.src && g.live l.dst

theorem removeNodes_ops (R : List Nat) {h g : Hugr Ops.Op Meta} (hr : removeNodes h R = some g) (n : Nat) :
    g.ops n = h.ops n ∨ g.ops n = .module := by
  induction R generalizing h with
  | nil => cases hr; exact .inl rfl
  | cons m R ih =>
    unfold removeNodes at hr
    split at hr
    · cases hr
    · rename_i h' hm
      rcases ih hr with h1 | h1
      · rw [h1]
        unfold Hugr.removeNode at hm
        split at hm
        · cases hm
          simp only [upd]
          split
          · exact .inr rfl
          · exact .inl rfl
        · cases hm
      · exact .inr h1

theorem deadCode_gone (hd : deadCodeElim h callback entries = .ok g) (n : Nat) :
    g.ops n = h.ops n ∨ g.ops n = .module := by
  unfold deadCodeElim at hd
  split at hd
  · cases hd
  · cases hd
  · split at hd
    · cases hd
    · rename_i hr
      cases hd
      exact removeNodes_ops _ hr n

theorem deadCode_left (ht : IsTree h) (hfm : Formed h) (hopen : EntriesOpen h entries)
    (hd : deadCodeElim h callback entries = .ok g) : Left h g := by
  have hw := C35_removes_exactly h g ht hfm.links hfm.tags callback entries hd
  have hs := deadCodeElim_spec ht hfm.links hfm.tags callback entries
  rw [hd] at hs
  obtain ⟨_, R, hrem, hR⟩ := hs
  have hl : ∀ n, g.live n = true ↔ h.live n = true ∧ (Above h.hier.parent n h.entrypoint →
      Needed h callback entries n) := by
    intro n
    rw [hw.live]
    refine and_congr_right fun _ => ?_
    tauto
  have hpar : ∀ n p, g.live n = true → h.hier.parent n = some p → g.live p = true := by
    intro n p hn hp
    rw [hl] at hn ⊢
    exact ⟨(ht.parent_live _ _ hp).2, fun hab =>
      needed_up ht hfm.edges hopen (hn.2 (.step hp hab)) p (.of_parent hp) hab⟩
  refine ⟨fun n hn => ((hl n).1 hn).1, ?_, deadCode_gone hd, hpar, ?_, hw.children, ?_, ?_, hw.links⟩
  · intro n hn
    refine hrem.ops n fun hc => ?_
    obtain ⟨h1, h2⟩ := (hR n).1 hc
    have hlv : h.live n = true := by
      generalize h.entrypoint = x, ht.entry_live = hx at h1
      cases h1 with
      | refl => exact hx
      | step hp _ => exact (ht.parent_live _ _ hp).1
    exact h2 (((hl n).1 (hn hlv)).2 h1)
  · intro n p hn
    rw [hw.parent n p hn]
    refine ⟨fun h1 => h1.1, fun h1 => ⟨h1, fun h2 => ?_⟩⟩
    exact h2.2 (((hl p).1 (hpar n p hn h1)).2 h2.1)
  · intro m c hm hc hst
    rw [hl] at hm ⊢
    have hp := child_parent ht hc
    refine ⟨(ht.parent_live _ _ hp).1, fun hab => ?_⟩
    rcases above_cases hab with he | ⟨p', hp', hab⟩
    · exact he ▸ .entrypoint
    · rw [hp] at hp'; cases hp'; exact .structural (hm.2 hab) hc hst
  · intro l hlm hn
    rw [hl] at hn ⊢
    refine ⟨(hfm.links l hlm).1, fun hab => ?_⟩
    by_cases he : l.src = h.entrypoint
    · exact he ▸ .entrypoint
    · exact .source hlm (hn.2 (hfm.inside l hlm hab he))

theorem Left.link (e : Left h g) {l : Link} (hl : l ∈ h.links) (hd : g.live l.dst = true) :
    l ∈ g.links := by
  rw [e.links, List.mem_filter]
  exact ⟨hl, by simp [e.source l hl hd, hd]⟩

theorem Left.succ (e : Left h g) (ht : IsTree h) (hfm : Formed h) {l : Link} (hl : l ∈ h.links) {x y z}
    (hop : h.ops l.src = .dataflowBlock x y z) (hs : g.live l.src = true) : g.live l.dst = true := by
  obtain ⟨hst, p, hp1, hp2⟩ := hfm.succ l hl x y z hop
  exact e.structural p _ (e.parent _ _ hs hp1) ((ht.child_iff _ _).2 hp2) hst

/-- The cases of a conditional. -/
theorem Left.cond (e : Left h g) (hfm : Formed h) {n rows other outs} (hn : g.live n = true)
    (hop : h.ops n = .conditional rows other outs) : g.children n = h.children n := by
  change g.hier.children n = h.hier.children n
  rw [e.children n hn, List.filter_eq_self]
  intro c hc
  obtain ⟨sig, hs⟩ := hfm.cases n _ _ _ c hop hc
  exact e.structural n c hn hc (by rw [hs]; simp [Structural])

theorem Left.cfg (e : Left h g) (ht : IsTree h) (hfm : Formed h) {n sig} (hn : g.live n = true)
    (hop : h.ops n = .cfg sig) : ∃ b rest rest', h.children n = b :: rest ∧ g.children n = b :: rest' ∧
      g.live b = true := by
  obtain ⟨b, rest, x, y, z, hc, hb⟩ := hfm.entry n sig (e.live n hn) hop
  have hl := e.structural n b hn (by rw [hc]; simp) (by rw [hb]; simp [Structural])
  refine ⟨b, rest, rest.filter fun c => g.live c, hc, ?_, hl⟩
  change g.hier.children n = _
  change h.hier.children n = _ at hc
  rw [e.children n hn, hc, List.filter_cons, if_pos hl]

theorem Left.io (e : Left h g) (ht : IsTree h) (hfm : Formed h) {p : Nat} (hp : g.live p = true)
    (hb : (body (h.ops p)).isSome = true) : ∃ i o, HasIO h p i o ∧ HasIO g p i o ∧ g.live i = true ∧
      g.live o = true := by
  obtain ⟨i, o, ⟨rest, hc⟩, hi, ho⟩ := hfm.io p (e.live p hp) hb
  have h1 := e.structural p i hp (by rw [hc]; simp) hi
  have h2 := e.structural p o hp (by rw [hc]; simp) ho
  refine ⟨i, o, ⟨rest, hc⟩, ⟨rest.filter fun c => g.live c, ?_⟩, h1, h2⟩
  change g.hier.children p = _
  change h.hier.children p = _ at hc
  rw [e.children p hp, hc, List.filter_cons, if_pos h1, List.filter_cons, if_pos h2]

theorem hasIO_fun {p i o i' o' : Nat} (h1 : HasIO h p i o) (h2 : HasIO h p i' o') : i = i' ∧ o = o' := by
  obtain ⟨r1, h1⟩ := h1
  obtain ⟨r2, h2⟩ := h2
  rw [h1] at h2
  simp only [List.cons.injEq] at h2
  exact ⟨h2.1, h2.2.1⟩

theorem formed_body (ht : IsTree h) (hfm : Formed h) (n : Nat) (ins : List (Val W)) (p : Nat)
    (vals : List (Val W)) (i o : Nat) (hb : Begins h n ins p vals) (_ : HasIO h p i o) :
    (body (h.ops p)).isSome = true := by
  cases hb with
  | dfg hop => rw [hop]; rfl
  | loop hop => rw [hop]; rfl
  | cond hop hc hr hl =>
    obtain ⟨sig, hs⟩ := hfm.cases _ _ _ _ p hop (List.mem_of_getElem? hc)
    rw [hs]; rfl
  | cfg hop hc =>
    obtain ⟨e, rest, x, y, z, h1, h2⟩ := hfm.entry n _ (ht.parent_live _ _
      (child_parent ht (n := n) (c := p) (by rw [hc]; simp))).2 hop
    rw [hc] at h1
    simp only [List.cons.injEq] at h1
    rw [h1.1, h2]; rfl

/-- The functions that are not removed. -/
def Survives (h g : Hugr Ops.Op Meta) (f : Nat) : Prop :=
  IsDefn h f → h.live f = true → g.live f = true

theorem hasIO_live (ht : IsTree h) {p i o : Nat} (hio : HasIO h p i o) : h.live p = true :=
  (ht.parent_live _ _ (io_parent ht hio).1).2

theorem left_sim (ht : IsTree h) (hfm : Formed h) (e : Left h g) (S : Sem W E)
    (hS : S.Closed (Survives h g)) :
    Sim (fun n => g.live n = true) (Survives h g) [] S.const h S g := by
  have hsame : ∀ n, g.live n = true → g.ops n = h.ops n := fun n hn => e.ops n fun _ => hn
  exact
    { ops := hsame
      parent := fun n p hn hp => ⟨e.parent n p hn hp, (e.parent_eq n p hn).2 hp⟩
      io := fun p i o hp hb hio => by
        obtain ⟨i', o', h1, h2, h3, h4⟩ := e.io ht hfm hp hb
        obtain ⟨rfl, rfl⟩ := hasIO_fun hio h1
        exact ⟨h3, h4, h2⟩
      ioParent := fun p i o hio => io_parent ht hio
      cond := fun n rows other outs tag c hn hop hc => by
        have := e.cond hfm hn hop
        refine ⟨?_, by rw [this]; exact hc⟩
        have hm : c ∈ g.hier.children n := by
          change c ∈ g.children n
          rw [this]; exact List.mem_of_getElem? hc
        rw [e.children n hn] at hm
        exact (List.mem_filter.1 hm).2
      condParent := fun n _ _ _ tag c _ hc => child_parent ht (List.mem_of_getElem? hc)
      case := fun p c sig hop hp hc => e.structural c p hc ((ht.child_iff _ _).2 hp)
        (by rw [hop]; simp [Structural])
      cfg := fun n sig entry rest hn hop hc => by
        obtain ⟨b, r, r', h1, h2, h3⟩ := e.cfg ht hfm hn hop
        rw [hc] at h1
        simp only [List.cons.injEq] at h1
        rw [h1.1]
        exact ⟨h3, r', h2⟩
      cfgParent := fun n _ entry rest _ hc => child_parent ht (by rw [hc]; simp)
      block := fun p c x y z hop hp hc => e.structural c p hc ((ht.child_iff _ _).2 hp)
        (by rw [hop]; simp [Structural])
      links := fun l hl hd => .inl ⟨e.source l hl hd, e.link hl hd⟩
      succ := fun l hl x y z hop =>
        ⟨fun hs => ⟨e.succ ht hfm hl hop hs, e.link hl (e.succ ht hfm hl hop hs)⟩, e.source l hl⟩
      fns := fun f i o hf hd hio => hf hd (hasIO_live ht hio)
      noFns := fun f _ hno ⟨a, b, hab⟩ => by
        rcases e.gone f with h1 | h1
        · exact hno ⟨a, b, by rw [← h1]; exact hab⟩
        · rw [h1] at hab; cases hab
      loads := fun _ _ _ _ _ _ hk _ _ => hk
      closed := hS
      consts := fun _ _ => rfl
      values := by simp
      new := by simp
      loadOps := by simp
      nodup := by simp }

/-- In the other direction. -/
theorem left_sim_back (ht : IsTree h) (htg : IsTree g) (hfm : Formed h) (e : Left h g) (S : Sem W E)
    (hS : S.Closed (Survives h g)) :
    Sim (fun n => g.live n = true) (Survives h g) [] S.const g S h := by
  have hsame : ∀ n, g.live n = true → g.ops n = h.ops n := fun n hn => e.ops n fun _ => hn
  have hlink : ∀ l ∈ g.links, l ∈ h.links ∧ g.live l.src = true ∧ g.live l.dst = true := by
    intro l hl
    rw [e.links, List.mem_filter] at hl
    exact ⟨hl.1, by simpa using hl.2⟩
  have hcl : ∀ {n c : Nat}, c ∈ g.children n → g.live n = true ∧ g.live c = true := fun hc =>
    (htg.parent_live _ _ (child_parent htg hc)).symm
  exact
    { ops := fun n hn => (hsame n hn).symm
      parent := fun n p hn hp => ⟨(htg.parent_live _ _ hp).2, (e.parent_eq n p hn).1 hp⟩
      io := fun p i o hp hb hio => by
        rw [hsame p hp] at hb
        obtain ⟨i', o', h1, h2, h3, h4⟩ := e.io ht hfm hp hb
        obtain ⟨rfl, rfl⟩ := hasIO_fun hio h2
        exact ⟨h3, h4, h1⟩
      ioParent := fun p i o hio => io_parent htg hio
      cond := fun n rows other outs tag c hn hop hc => by
        rw [hsame n hn] at hop
        have := e.cond hfm hn hop
        exact ⟨(hcl (List.mem_of_getElem? hc)).2, by rw [← this]; exact hc⟩
      condParent := fun n _ _ _ tag c _ hc => child_parent htg (List.mem_of_getElem? hc)
      case := fun p c sig hop hp hc => (htg.parent_live _ _ hp).1
      cfg := fun n sig entry rest hn hop hc => by
        rw [hsame n hn] at hop
        obtain ⟨b, r, r', h1, h2, h3⟩ := e.cfg ht hfm hn hop
        rw [hc] at h2
        simp only [List.cons.injEq] at h2
        rw [h2.1]
        exact ⟨h3, r, h1⟩
      cfgParent := fun n _ entry rest _ hc => child_parent htg (by rw [hc]; simp)
      block := fun p c x y z hop hp hc => (htg.parent_live _ _ hp).1
      links := fun l hl hd => .inl ⟨(hlink l hl).2.1, (hlink l hl).1⟩
      succ := fun l hl x y z hop => ⟨fun _ => ⟨(hlink l hl).2.2, (hlink l hl).1⟩, fun _ => (hlink l hl).2.1⟩
      fns := fun f i o hf _ hio => hasIO_live htg hio
      noFns := fun f hf hno ⟨a, b, hab⟩ => hno ⟨a, b, by rw [e.ops f (hf ⟨a, b, hab⟩)]; exact hab⟩
      loads := fun _ _ _ _ _ _ hk _ _ => hk
      closed := hS
      consts := fun _ _ => rfl
      values := by simp
      new := by simp
      loadOps := by simp
      nodup := by simp }

theorem left_body (ht : IsTree h) (htg : IsTree g) (hfm : Formed h) (e : Left h g) (n : Nat)
    (ins : List (Val W)) (p : Nat) (vals : List (Val W)) (i o : Nat) (hb : Begins g n ins p vals)
    (hio : HasIO g p i o) : (body (g.ops p)).isSome = true := by
  have hsame : ∀ n, g.live n = true → g.ops n = h.ops n := fun n hn => e.ops n fun _ => hn
  cases hb with
  | dfg hop => rw [hop]; rfl
  | loop hop => rw [hop]; rfl
  | cond hop hc hr hl =>
    have hp := child_parent htg (List.mem_of_getElem? hc)
    have hn := (htg.parent_live _ _ hp).2
    rw [hsame n hn] at hop
    rw [e.cond hfm hn hop] at hc
    obtain ⟨sig, hs⟩ := hfm.cases _ _ _ _ p hop (List.mem_of_getElem? hc)
    rw [hsame p (htg.parent_live _ _ hp).1, hs]; rfl
  | cfg hop hc =>
    have hp := child_parent htg (n := n) (c := p) (by rw [hc]; simp)
    have hn := (htg.parent_live _ _ hp).2
    rw [hsame n hn] at hop
    obtain ⟨b, r, r', h1, h2, h3⟩ := e.cfg ht hfm hn hop
    obtain ⟨b', rest, x, y, z, h4, h5⟩ := hfm.entry n _ (e.live n hn) hop
    rw [h4] at h1
    rw [hc] at h2
    simp only [List.cons.injEq] at h1 h2
    rw [h2.1, hsame b h3, ← h1.1, h5]; rfl

/-- Dead code elimination neither loses nor adds executions. -/
theorem deadCode_preserves (ht : IsTree h) (hfm : Formed h) (hopen : EntriesOpen h entries)
    (hd : deadCodeElim h callback entries = .ok g) (S : Sem W E) (hS : S.Closed (Survives h g))
    (Root : Nat → List (Val W) → Prop)
    (hroot : ∀ r args, Root r args → g.live r = true ∧ FuncsInAll (Survives h g) args) :
    Preserves h S g S Root ∧ Preserves g S h S Root := by
  have e := deadCode_left ht hfm hopen hd
  have htg := (C35_ancestors_partial h g ht hfm.links hfm.tags hfm.edges callback entries hopen hd).1
  refine ⟨sim_preserves (left_sim ht hfm e S hS) (formed_body ht hfm) (by simp) hroot fun n _ h2 => h2,
    sim_preserves (left_sim_back ht htg hfm e S hS) (left_body ht htg hfm e) (by simp) hroot
      fun n h1 _ => h1⟩

end Elim

end Verif.Dataflow
