import Verif.Patch.InlineFuncsLemmas

/-!
# The loop of inlining calls
-/
namespace Verif.Patch

open Verif.Graph Verif.Ops Verif.Passes Verif.Validate Verif.Dataflow

variable {Meta W E : Type} {C : Validate.Context} {h h0 g : Hugr Ops.Op Meta}

/-- `alloc h f` are unused indices, as many as there are nodes inside `f`. -/
def Allocates (alloc : Hugr Ops.Op Meta → Nat → List Nat) : Prop :=
  ∀ h f, IsTree h → h.live f = true → (alloc h f).Nodup ∧ (∀ x ∈ alloc h f, h.live x = false) ∧
    ((h.descendants f).drop 1).length = (alloc h f).length

/-- The operations and constants at copies do what those at the originals do. -/
def viaSem (S : Sem W E) (orig : Nat → Nat) : Sem W E :=
  { S with ext := fun x => S.ext (orig x), const := fun x => S.const (orig x) }

/-- What holds during the loop that begins with `h0`, where `T` are the functions to be inlined. -/
structure LoopInv (C : Validate.Context) (h0 : Hugr Ops.Op Meta) (T : List Nat)
    (pred : Hugr Ops.Op Meta → Nat → Bool) (h : Hugr Ops.Op Meta) (q : List Nat) (orig ex : Nat → Nat) : Prop where
  tree : IsTree h
  valid : Valid (Context.via C orig) h
  one : OneSource h
  plain : PlainCalls h
  blank : ∀ x, h.live x = false → ¬ IsDefn h x
  defs : ∀ t ∈ T, h.live t = true ∧ ∃ n s, h.ops t = .funcDefn n s
  budget : Budget h T ex
  entry : h.entrypoint = h0.entrypoint
  root : h.moduleRoot = h0.moduleRoot
  old : ∀ x, h0.live x = true → orig x = x ∧ h.live x = true ∧ h.hier.parent x = h0.hier.parent x
  returns : ∀ {W E : Type} (S : Sem W E) k args outs, Returns h0 S k args outs ↔ Returns h (viaSem S orig) k args outs
  calls : ∀ x, h0.live x = true → ∀ t ∈ T, CallsAt h x t → CallsAt h0 x t
  kept : ∀ x, h0.live x = true → h.ops x = h0.ops x ∨
    Above h0.hier.parent x h0.entrypoint ∧ (∃ t ∈ T, CallsAt h0 x t) ∧ ∃ sig, h.ops x = .dfg sig
  queue : ∀ x ∈ q, h.live x = true ∧ Above h.hier.parent x h.entrypoint
  covered : ∀ x, Above h.hier.parent x h.entrypoint → (∃ c ∈ q, Above h.hier.parent x c) ∨
    ∀ t ∈ T, CallsAt h x t → ∃ h', pred h' x = false

theorem callsAt_iff (ht : IsTree h) (hv : Valid C h) (hone : OneSource h) (n t : Nat) :
    CallsAt h n t ↔ isCall (h.ops n) = true ∧ staticSource h n = some t :=
  and_congr_right fun _ => (Passes.staticSource_spec (valid_staticOk ht hv hone) n t).symm

/-- A call is as the rewrite asks. -/
theorem callsAt_isCall (hone : OneSource h) (hp : PlainCalls h) {n t : Nat}
    (hn : h.live n = true) (hc : CallsAt h n t) : ∃ inst, IsCall h n t [] inst ∧ h.ops n = .call ⟨[], inst⟩ [] inst := by
  obtain ⟨hc, l, hl, rfl, rfl⟩ := hc
  cases hop : h.ops l.dst <;> rw [hop] at hc <;> simp only [isCall, reduceCtorEq, Bool.false_eq_true] at hc
  rename_i sig targs inst
  obtain ⟨rfl, rfl⟩ := hp _ _ _ _ hn hop
  have hport := hl.2
  rw [hop] at hport
  simp only [Ops.Op.ownStaticPort, Option.some.injEq] at hport
  refine ⟨inst, ⟨hn, ⟨_, hop⟩, ⟨l, hl.1, rfl, hport.symm, rfl⟩, ?_⟩, rfl⟩
  intro l' hl' hd hpt
  refine hone l' l ⟨hl', ?_⟩ hl hd
  rw [hd, hop, hpt]; rfl

/-- One node. -/
theorem visit_ok {T : List Nat} {pred : Hugr Ops.Op Meta → Nat → Bool}
    {alloc : Hugr Ops.Op Meta → Nat → List Nat} (ht0 : IsTree h0) (halloc : Allocates alloc) (env : Types.Env) {n : Nat} {q : List Nat}
    {orig ex : Nat → Nat} (inv : LoopInv C h0 T pred h (n :: q) orig ex) :
    ∃ g orig' ex', visitNode env T pred alloc h n = .ok g ∧ LoopInv C h0 T pred g (q ++ g.children n) orig' ex' ∧
      ((q ++ g.children n).map ex').sum < ((n :: q).map ex).sum := by
  obtain ⟨hlive, hab⟩ := inv.queue n (by simp)
  have hk := inv.budget.kids n
  have hcs := callsAt_iff inv.tree inv.valid inv.one n
  unfold visitNode
  cases hw : wantedTarget T pred h n with
  | none =>
    simp only []
    refine ⟨h, orig, ex, rfl, ⟨inv.tree, inv.valid, inv.one, inv.plain, inv.blank, inv.defs, inv.budget, inv.entry,
      inv.root, inv.old, inv.returns, inv.calls, inv.kept, ?_, ?_⟩, ?_⟩
    · intro x hx
      rcases List.mem_append.1 hx with hx | hx
      · exact inv.queue x (by simp [hx])
      · have hp := (inv.tree.child_iff _ _).1 hx
        exact ⟨(inv.tree.parent_live _ _ hp).1, .step hp hab⟩
    · intro x hx
      rcases inv.covered x hx with ⟨c, hc, hxc⟩ | h1
      · rcases List.mem_cons.1 hc with rfl | hc
        · by_cases hxn : x = c
          · subst hxn
            right
            intro t htT hcall
            refine ⟨h, ?_⟩
            obtain ⟨h1, h2⟩ := (hcs t).1 hcall
            unfold wantedTarget at hw
            rw [if_pos h1, h2] at hw
            simp only [] at hw
            by_contra hne
            rw [if_pos (by simp [htT, hne])] at hw
            cases hw
          · obtain ⟨d, h1, h2⟩ := hxc.last hxn
            exact .inl ⟨d, List.mem_append.2 (.inr ((inv.tree.child_iff _ _).2 h2)), h1⟩
        · exact .inl ⟨c, List.mem_append.2 (.inl hc), hxc⟩
      · exact .inr h1
    · simp only [List.map_append, List.sum_append, List.map_cons, List.sum_cons]
      omega
  | some t =>
    obtain ⟨hcall, htT⟩ : CallsAt h n t ∧ t ∈ T := by
      unfold wantedTarget at hw
      by_cases h1 : isCall (h.ops n) = true
      · rw [if_pos h1] at hw
        cases hs : staticSource h n with
        | none => rw [hs] at hw; cases hw
        | some t' =>
          rw [hs] at hw
          simp only [] at hw
          by_cases h2 : (decide (t' ∈ T) && pred h n) = true
          · rw [if_pos h2] at hw; cases hw
            rw [Bool.and_eq_true, decide_eq_true_eq] at h2
            exact ⟨(hcs _).2 ⟨h1, hs⟩, h2.1⟩
          · rw [if_neg h2] at hw; cases hw
      · rw [if_neg h1] at hw; cases hw
    obtain ⟨htl, name, fsig, hfd⟩ := inv.defs t htT
    obtain ⟨inst, hic, hop⟩ := callsAt_isCall inv.one inv.plain hlive hcall
    have hout := inv.budget.outside inv.tree htT hcall
    obtain ⟨ha1, ha2, ha3⟩ := halloc h t inv.tree htl
    obtain ⟨g, hm, r, nodes, μ, hg, z⟩ := exists_callAt inv.tree inv.valid hic hfd hout
      (news := alloc h t) ⟨ha1, ha2, ha3, fun x hx => inv.blank x (ha2 x hx)⟩ env
    simp only [hg]
    have hsig : fsig = ⟨[], inst⟩ := by
      have := z.call
      rw [hop] at this
      injection this with h1 _ _
      exact h1.symm
    have hsame : ∀ x, h.live x = true → original nodes μ x = x := fun x hx => CallAt.orig_old (z.old hx)
    have z' : CallAt (Context.via (Context.via C orig) (original nodes μ)) h hm g n t r name fsig [] inst nodes μ :=
      { z with valid := Valid.via inv.valid hsame }
    have hvg := z'.valid_g hsig (by
      intro a ha h1
      change C.constOk (orig (original nodes μ (μ a))) = true
      change C.constOk (orig (original nodes μ a)) = true at h1
      rw [z.orig_new ha]
      rw [hsame a (z.live_mem ha)] at h1
      exact h1)
    have hentry : g.entrypoint = h.entrypoint := by rw [z.copied.entrypoint, z.emptied.entrypoint]
    have hroot : g.moduleRoot = h.moduleRoot := by rw [z.copied.moduleRoot, z.emptied.moduleRoot]
    have hnk : original nodes μ n = n := hsame n hlive
    have hb := z.budget inv.budget htT hcall inv.defs
    have hcalls : ∀ x, h.live x = true → ∀ t ∈ T, CallsAt g x t → CallsAt h x t ∧ x ≠ n := by
      intro x hx t htT hc
      obtain ⟨h1, h2, _⟩ := z.callsAt (inv.defs t htT).1 hc (.inl (inv.defs t htT).2)
      rw [hsame x hx] at h2
      exact ⟨h2, h1⟩
    refine ⟨g, fun x => orig (original nodes μ x), fun x => ex (original nodes μ x), rfl,
      ⟨z.treeG, hvg, z.oneSource inv.one, z.plain inv.plain, z.blank inv.blank, ?_, hb,
        hentry.trans inv.entry, hroot.trans inv.root, ?_, ?_, ?_, ?_, ?_, ?_⟩, ?_⟩
    · intro t' htT'
      obtain ⟨h1, a, b, h2⟩ := inv.defs t' htT'
      refine ⟨(z.liveG _).2 (.inl h1), a, b, ?_⟩
      rw [z.ops_old (z.old h1) (by rintro rfl; rw [z.call] at h2; cases h2)]
      exact h2
    · intro x hx
      obtain ⟨h1, h2, h3⟩ := inv.old x hx
      refine ⟨?_, (z.liveG _).2 (.inl h2), ?_⟩
      · change orig (original nodes μ x) = x
        rw [hsame x h2, h1]
      · rw [z.parent_old (z.old h2), h3]
    · intro W E S k args outs
      rw [inv.returns S k args outs]
      exact z.cover.returns_iff
    · intro x hx t' htT' hc
      exact inv.calls x hx t' htT' (hcalls x (inv.old x hx).2.1 t' htT' hc).1
    · intro x hx
      obtain ⟨h1, h2, h3⟩ := inv.old x hx
      by_cases hn : x = n
      · subst hn
        refine .inr ⟨?_, ⟨t, htT, inv.calls x hx t htT hcall⟩, _, z.ops_n⟩
        rw [← inv.entry]
        have key : ∀ a y, Above h.hier.parent a y → h0.live a = true → Above h0.hier.parent a y := by
          intro a y hy
          induction hy with
          | refl => exact fun _ => .refl _
          | @step a b c hp _ ih =>
            intro ha
            rw [(inv.old a ha).2.2] at hp
            exact .step hp (ih (ht0.parent_live _ _ hp).2)
        exact key _ _ hab hx
      · rw [z.ops_old (z.old h2) hn]
        exact inv.kept x hx
    · intro x hx
      rw [hentry]
      rcases List.mem_append.1 hx with hx | hx
      · obtain ⟨h1, h2⟩ := inv.queue x (by simp [hx])
        exact ⟨(z.liveG _).2 (.inl h1), z.above_old h2⟩
      · have hp := (z.treeG.child_iff _ _).1 hx
        exact ⟨(z.treeG.parent_live _ _ hp).1, .step hp (z.above_old hab)⟩
    · intro x hx
      rw [hentry] at hx
      have hbelow : ∀ y, Above g.hier.parent y n → y ≠ n → ∃ c ∈ q ++ g.children n, Above g.hier.parent y c := by
        intro y hy hne
        obtain ⟨d, h1, h2⟩ := hy.last hne
        exact ⟨d, List.mem_append.2 (.inr ((z.treeG.child_iff _ _).2 h2)), h1⟩
      have hnot : ∀ t ∈ T, CallsAt g n t → ∃ h', pred h' n = false := by
        intro t' htT' hc
        exact absurd rfl (hcalls n hlive t' htT' hc).2
      by_cases hxn : x = n
      · subst hxn; exact .inr hnot
      have hxl : g.live x = true := by
        rcases above_cases hx with e | ⟨p, hp, _⟩
        · rw [e, ← hentry]; exact z.treeG.entry_live
        · exact (z.treeG.parent_live _ _ hp).1
      rcases z.cases2 hxl with h1 | ⟨a, ha, rfl⟩
      · rcases inv.covered x (z.above_back hx h1) with ⟨c, hc, hxc⟩ | h2
        · rcases List.mem_cons.1 hc with rfl | hc
          · exact .inl (hbelow x (z.above_old hxc) hxn)
          · exact .inl ⟨c, List.mem_append.2 (.inl hc), z.above_old hxc⟩
        · exact .inr fun t' htT' hc => h2 t' htT' (hcalls x h1 t' htT' hc).1
      · exact .inl (hbelow _ (z.copy_inside ha).above (z.ne_n ha))
    · have h1 := hb.kids n
      simp only [List.map_append, List.sum_append, List.map_cons, List.sum_cons]
      have h2 : (q.map fun x => ex (original nodes μ x)) = q.map ex :=
        List.map_congr_left fun x hx => by rw [hsame x (inv.queue x (by simp [hx])).1]
      rw [h2]
      rw [hnk] at h1
      omega

/-- The loop ends. -/
theorem loop_ok {T : List Nat} {pred : Hugr Ops.Op Meta → Nat → Bool}
    {alloc : Hugr Ops.Op Meta → Nat → List Nat} (ht0 : IsTree h0) (halloc : Allocates alloc) (env : Types.Env) :
    ∀ fuel (h : Hugr Ops.Op Meta) (q : List Nat) (orig ex : Nat → Nat),
      LoopInv C h0 T pred h q orig ex → (q.map ex).sum ≤ fuel →
      ∃ g orig' ex', inlineLoop env T pred alloc fuel h q = some (.ok g) ∧ LoopInv C h0 T pred g [] orig' ex'
  | fuel, h, [], orig, ex, inv, _ => ⟨h, orig, ex, by cases fuel <;> rfl, inv⟩
  | 0, h, n :: q, orig, ex, inv, hf => by
    have := inv.budget.kids n
    simp only [List.map_cons, List.sum_cons] at hf
    omega
  | fuel + 1, h, n :: q, orig, ex, inv, hf => by
    obtain ⟨g, orig', ex', h1, h2, h3⟩ := visit_ok ht0 halloc env inv
    obtain ⟨g', o, e, h4, h5⟩ := loop_ok ht0 halloc env fuel g _ orig' ex' h2 (by omega)
    refine ⟨g', o, e, ?_, h5⟩
    simp only [inlineLoop, h1]
    exact h4

end Verif.Patch
