import Verif.Patch.InlineFuncsLoop

/-!
# C56: inlining the calls of functions that are not on cycles
-/
namespace Verif.Patch

open Verif.Graph Verif.Ops Verif.Passes Verif.Validate Verif.Dataflow

variable {Meta : Type} {C : Validate.Context} {h : Hugr Ops.Op Meta}

/-- The function uses itself: it calls or loads itself, or something that uses it. -/
def OnCycle (h : Hugr Ops.Op Meta) (f : Nat) : Prop := Relation.TransGen (Uses h) f f

/-- The functions whose calls are inlined: definitions at module level that are not on cycles. -/
def Inlinable (h : Hugr Ops.Op Meta) (f : Nat) : Prop :=
  h.hier.parent f = some h.moduleRoot ∧ (∃ name sig, h.ops f = .funcDefn name sig) ∧ ¬ OnCycle h f

theorem uses_next {f t u : Nat} (h1 : Uses h f t) (h2 : Uses h t u) (hv : Valid C h) :
    ∃ n s, h.ops t = .funcDefn n s := by
  obtain ⟨l, hl, rfl, _⟩ := h1
  obtain ⟨l', _, _, _, hne, ha⟩ := h2
  obtain ⟨c, h3, h4⟩ := ha.last hne
  have hc := hv.contains _ _ h4
  rcases (static_source hv hl).1 with (h5 | ⟨n, s, h5⟩) | ⟨_, t, h5⟩
  · exact h5
  all_goals
    rw [h5] at hc
    simp [MayContain, body] at hc

theorem onCycle_defn (hv : Valid C h) {f : Nat} (hc : OnCycle h f) :
    (∃ n s, h.ops f = .funcDefn n s) ∧ h.hier.parent f = some h.moduleRoot := by
  have h1 : ∃ t, Uses h f t := by
    rcases Relation.TransGen.head'_iff.1 hc with ⟨t, h1, _⟩
    exact ⟨t, h1⟩
  have h2 : ∃ s, Uses h s f := by
    rcases Relation.TransGen.tail'_iff.1 hc with ⟨t, _, h1⟩
    exact ⟨t, h1⟩
  obtain ⟨t, h1⟩ := h1
  obtain ⟨s, h2⟩ := h2
  refine ⟨uses_next h2 h1 hv, ?_⟩
  obtain ⟨l, _, rfl, hp, _⟩ := h2
  exact hp

theorem cyclicFuncs_spec (ht : IsTree h) (hv : Valid C h) {succ : Nat → List Nat}
    (hs1 : ∀ f ∈ moduleNodes h, ∀ t, t ∈ succ f ↔ Uses h f t)
    (hs2 : ∀ f ∈ moduleNodes h, ∀ t ∈ succ f, t ∈ moduleNodes h) :
    ∃ cyc, cyclicFuncs h (moduleNodes h) succ = .ok cyc ∧ ∀ f, f ∈ cyc ↔ OnCycle h f := by
  have hrt : ∀ {a b}, Relation.ReflTransGen (fun a b => b ∈ succ a) a b → a ∈ moduleNodes h →
      Relation.ReflTransGen (Uses h) a b ∧ b ∈ moduleNodes h := by
    intro a b hab ha
    induction hab with
    | refl => exact ⟨.refl, ha⟩
    | tail _ hbc ih => exact ⟨.tail ih.1 ((hs1 _ ih.2 _).1 hbc), hs2 _ ih.2 _ hbc⟩
  have hrt2 : ∀ {a b}, Relation.ReflTransGen (Uses h) a b → a ∈ moduleNodes h →
      Relation.ReflTransGen (fun a b => b ∈ succ a) a b ∧ b ∈ moduleNodes h := by
    intro a b hab ha
    induction hab with
    | refl => exact ⟨.refl, ha⟩
    | tail _ hbc ih => exact ⟨.tail ih.1 ((hs1 _ ih.2 _).2 hbc), hs2 _ ih.2 _ ((hs1 _ ih.2 _).2 hbc)⟩
  have hiff : ∀ f, f ∈ (moduleNodes h).filter (fun f =>
      decide (f ∈ Passes.dfs succ (Passes.dfsFuel succ (moduleNodes h) (succ f)) [] (succ f))) ↔ OnCycle h f := by
    intro f
    rw [List.mem_filter, decide_eq_true_eq]
    constructor
    · rintro ⟨hf, hd⟩
      rw [dfs_mem succ _ _ (moduleNodes_nodup ht) (hs2 f hf) hs2] at hd
      obtain ⟨s, hs, hp⟩ := hd
      exact Relation.TransGen.head'_iff.2 ⟨s, (hs1 f hf s).1 hs, (hrt hp (hs2 f hf s hs)).1⟩
    · intro hc
      obtain ⟨⟨n, s, hop⟩, hp⟩ := onCycle_defn hv hc
      have hf := mem_moduleNodes ht f hp (by rw [hop]; rfl)
      refine ⟨hf, ?_⟩
      rw [dfs_mem succ _ _ (moduleNodes_nodup ht) (hs2 f hf) hs2]
      obtain ⟨t, h1, h2⟩ := Relation.TransGen.head'_iff.1 hc
      exact ⟨t, (hs1 f hf t).2 h1, (hrt2 h2 (hs2 f hf t ((hs1 f hf t).2 h1))).1⟩
  unfold cyclicFuncs
  simp only []
  rw [if_pos]
  · exact ⟨_, rfl, hiff⟩
  · rw [List.all_eq_true]
    intro f hf
    obtain ⟨⟨n, s, hop⟩, _⟩ := onCycle_defn hv ((hiff f).1 hf)
    rw [hop]; rfl

theorem targetFuncs_spec (ht : IsTree h) {cyc : List Nat} (hc : ∀ f, f ∈ cyc ↔ OnCycle h f)
    (f : Nat) : f ∈ targetFuncs h cyc ↔ Inlinable h f := by
  unfold targetFuncs Inlinable
  rw [List.mem_filter, Bool.and_eq_true, decide_eq_true_eq, hc]
  refine and_congr (ht.child_iff _ _) (and_congr ?_ Iff.rfl)
  constructor
  · intro h2
    cases hop : h.ops f <;> rw [hop] at h2 <;> simp only [isFuncDefn, reduceCtorEq, Bool.false_eq_true] at h2
    exact ⟨_, _, rfl⟩
  · rintro ⟨n, s, hop⟩
    rw [hop]; rfl

/-- What the pass asks of a Hugr, beyond validity: every call and load has one source, no call has type
arguments, and no function is stored where there is no node. -/
structure Inlines (h : Hugr Ops.Op Meta) : Prop where
  one : OneSource h
  plain : PlainCalls h
  blank : ∀ x, h.live x = false → ¬ IsDefn h x

/-- **C56** The pass ends, without a panic, for all valid Hugrs without type arguments of calls, and
makes a valid Hugr. No function returns anything else. Every call below the entrypoint that is left is of
a function on a cycle, is of a function without a body, or was refused; and no other nodes than such calls
below the entrypoint are changed, to DFG nodes. `orig x` is the node that `x` is a copy of. -/
theorem C56_inline_acyclic_partial (ht : IsTree h) (hv : Valid C h) (hi : Inlines h) (env : Types.Env)
    (pred : Hugr Ops.Op Meta → Nat → Bool) {alloc : Hugr Ops.Op Meta → Nat → List Nat} (ha : Allocates alloc) :
    ∃ fuel g, ∃ orig : Nat → Nat, inlineAcyclic env pred alloc fuel h = some (.ok g) ∧
      IsTree g ∧ Valid (Context.via C orig) g ∧ Inlines g ∧
      (∀ (W E : Type) (S : Sem W E) k args outs,
        Returns h S k args outs ↔ Returns g (viaSem S orig) k args outs) ∧
      (∀ x t, Above g.hier.parent x g.entrypoint → CallsAt g x t → Inlinable h t → ∃ h', pred h' x = false) ∧
      ∀ x, h.live x = true → orig x = x ∧ g.live x = true ∧ (g.ops x = h.ops x ∨
        Above h.hier.parent x h.entrypoint ∧ (∃ t, Inlinable h t ∧ CallsAt h x t) ∧ ∃ sig, g.ops x = .dfg sig) := by
  obtain ⟨succ, hmg, hs1, hs2⟩ := moduleGraph_spec ht (valid_staticOk ht hv hi.one)
  obtain ⟨cyc, hcyc, hc⟩ := cyclicFuncs_spec ht hv hs1 hs2
  have hT := targetFuncs_spec ht hc
  obtain ⟨ex, hex⟩ := exists_budget ht (T := targetFuncs h cyc) (fun t htT => ((hT t).1 htT).1)
    (fun t htT => ((hT t).1 htT).2.2)
  have inv : LoopInv C h (targetFuncs h cyc) pred h [h.entrypoint] id ex :=
    { tree := ht
      valid := hv
      one := hi.one
      plain := hi.plain
      blank := hi.blank
      defs := fun t htT => ⟨(ht.parent_live _ _ ((hT t).1 htT).1).1, ((hT t).1 htT).2.1⟩
      budget := hex
      entry := rfl
      root := rfl
      old := fun x hx => ⟨rfl, hx, rfl⟩
      returns := fun S k args outs => Iff.rfl
      calls := fun x _ t _ hc => hc
      kept := fun x _ => .inl rfl
      queue := by
        intro x hx
        rw [List.mem_singleton] at hx
        subst hx
        exact ⟨ht.entry_live, .refl _⟩
      covered := fun x hx => .inl ⟨_, List.mem_singleton.2 rfl, hx⟩ }
  obtain ⟨g, orig, ex', hg, inv'⟩ := loop_ok ht ha env _ h _ _ _ inv (Nat.le_refl _)
  refine ⟨([h.entrypoint].map ex).sum, g, orig, ?_, inv'.tree, inv'.valid, ⟨inv'.one, inv'.plain, inv'.blank⟩,
    fun W E S k args outs => inv'.returns S k args outs, ?_, ?_⟩
  · unfold inlineAcyclic
    rw [hmg]
    simp only [hcyc]
    exact hg
  · intro x t hx hcall hin
    rcases inv'.covered x hx with ⟨c, hc, _⟩ | h1
    · simp at hc
    · exact h1 t ((hT t).2 hin) hcall
  · intro x hx
    obtain ⟨h1, h2, _⟩ := inv'.old x hx
    refine ⟨h1, h2, ?_⟩
    rcases inv'.kept x hx with h3 | ⟨h3, ⟨t, htT, h4⟩, h5⟩
    · exact .inl h3
    · exact .inr ⟨h3, ⟨t, (hT t).1 htT, h4⟩, h5⟩

/-! ## Examples -/

/-- The indices after all that are in use. -/
def allocEnd (h : Hugr Ops.Op Meta) (f : Nat) : List Nat :=
  (List.range ((h.descendants f).drop 1).length).map (h.cap + ·)

theorem allocEnd_ok : Allocates (allocEnd (Meta := Meta)) := by
  intro h f ht _
  refine ⟨?_, ?_, ?_⟩
  · exact List.nodup_range.map fun a b => Nat.add_left_cancel
  · intro x hx
    obtain ⟨k, _, rfl⟩ := List.mem_map.1 hx
    cases e : h.live (h.cap + k) with
    | false => rfl
    | true => have := ht.in_range _ e; omega
  · simp [allocEnd]

/-- `main` (1) calls `f` (5), which calls `g` (9), which calls itself, and `k` (13). -/
def acyclicHistory : List (Cmd Ops.Op String) :=
  [ .addNodeWithParent 1 0 (.funcDefn "main" ⟨[], bool1⟩),
    .addNodeWithParent 2 1 (.input [bool]), .addNodeWithParent 3 1 (.output [bool]),
    .addNodeWithParent 4 1 (.call ⟨[], bool1⟩ [] bool1),
    .addNodeWithParent 5 0 (.funcDefn "f" ⟨[], bool1⟩),
    .addNodeWithParent 6 5 (.input [bool]), .addNodeWithParent 7 5 (.output [bool]),
    .addNodeWithParent 8 5 (.call ⟨[], bool1⟩ [] bool1),
    .addNodeWithParent 9 0 (.funcDefn "g" ⟨[], bool1⟩),
    .addNodeWithParent 10 9 (.input [bool]), .addNodeWithParent 11 9 (.output [bool]),
    .addNodeWithParent 12 9 (.call ⟨[], bool1⟩ [] bool1),
    .addNodeWithParent 13 0 (.funcDefn "k" ⟨[], bool1⟩),
    .addNodeWithParent 14 13 (.input [bool]), .addNodeWithParent 15 13 (.output [bool]),
    .addNodeWithParent 16 5 (.call ⟨[], bool1⟩ [] bool1),
    .connect ⟨2, 0, 4, 0⟩, .connect ⟨4, 0, 3, 0⟩, .connect ⟨5, 0, 4, 1⟩,
    .connect ⟨6, 0, 8, 0⟩, .connect ⟨8, 0, 16, 0⟩, .connect ⟨16, 0, 7, 0⟩, .connect ⟨9, 0, 8, 1⟩,
    .connect ⟨13, 0, 16, 1⟩,
    .connect ⟨10, 0, 12, 0⟩, .connect ⟨12, 0, 11, 0⟩, .connect ⟨9, 0, 12, 1⟩,
    .connect ⟨14, 0, 15, 0⟩, .setEntrypoint 1 ]

def acyclicHugr : Hugr Ops.Op String := built acyclicHistory

theorem acyclic_valid : IsTree acyclicHugr ∧ Valid anaContext acyclicHugr := by
  obtain ⟨h1, h2⟩ := built_ok acyclicHistory (by decide +kernel) (by decide +kernel)
  exact ⟨h1, (C47_validate_iff_partial _ _ h1 h2).1 (by decide +kernel)⟩

theorem acyclic_ops (k : Nat) : acyclicHugr.ops (k + 17) = .module := rfl

/-- A call with no type arguments, or no call. -/
def plainOp : Ops.Op → Bool
  | .call sig targs inst => decide (targs = []) && decide (sig = ⟨[], inst⟩)
  | _ => true

theorem acyclic_inlines : Inlines acyclicHugr := by
  refine ⟨?_, ?_, ?_⟩
  · have key : ∀ l ∈ acyclicHugr.links, ∀ l' ∈ acyclicHugr.links,
        (acyclicHugr.ops l.dst).ownStaticPort = some l.dstPort → (acyclicHugr.ops l'.dst).ownStaticPort = some l'.dstPort →
        l.dst = l'.dst → l.src = l'.src := by decide +kernel
    exact fun l l' h1 h2 e => key l h1.1 l' h2.1 h1.2 h2.2 e
  · intro n sig targs inst hn hop
    have hlt := acyclic_valid.1.in_range n hn
    have hcap : acyclicHugr.cap = 17 := by decide +kernel
    rw [hcap] at hlt
    have key : ∀ n < 17, plainOp (acyclicHugr.ops n) = true := by decide +kernel
    have := key n hlt
    rw [hop] at this
    simpa [plainOp] using this
  · rintro x hx ⟨n, s, hop⟩
    rcases Nat.lt_or_ge x 17 with hlt | hge
    · have key : ∀ n < 17, acyclicHugr.live n = true := by decide +kernel
      rw [key x hlt] at hx; cases hx
    · obtain ⟨k, rfl⟩ := Nat.exists_eq_add_of_le hge
      rw [Nat.add_comm, acyclic_ops] at hop; cases hop

/-- Some things about a result: the children of the nodes in the list. -/
def AcResult.children? (ns : List Nat) : Option (AcResult (Hugr Ops.Op Meta)) → Option (List (List Nat))
  | some (.ok g) => some (ns.map g.children)
  | _ => none

/-- Which of the nodes in the list are calls, and of what. -/
def AcResult.calls? (ns : List Nat) : Option (AcResult (Hugr Ops.Op Meta)) → Option (List (Option Nat))
  | some (.ok g) => some (ns.map fun n => if isCall (g.ops n) then staticSource g n else none)
  | _ => none

/-- The hypotheses are met, and this is the result: the copies of 8 and 16 in the former call 4 are 19,
which still calls `g`, and 20, which has become a DFG node with a copy of the body of `k`. -/
example : (∃ fuel g, ∃ orig : Nat → Nat,
      inlineAcyclic anaContext.types (fun _ _ => true) allocEnd fuel acyclicHugr = some (.ok g) ∧
      Valid (Context.via anaContext orig) g) ∧
    AcResult.children? [4, 20] (inlineAcyclic anaContext.types (fun _ _ => true) allocEnd 100 acyclicHugr) =
      some [[17, 18, 19, 20], [21, 22]] ∧
    AcResult.calls? [4, 8, 12, 16, 19, 20] (inlineAcyclic anaContext.types (fun _ _ => true) allocEnd 100 acyclicHugr) =
      some [none, some 9, some 9, some 13, some 9, none] := by
  refine ⟨?_, by decide +kernel, by decide +kernel⟩
  obtain ⟨fuel, g, orig, h1, _, h2, _⟩ := C56_inline_acyclic_partial acyclic_valid.1 acyclic_valid.2 acyclic_inlines
    anaContext.types (fun _ _ => true) allocEnd_ok
  exact ⟨fuel, g, orig, h1, h2⟩

/-- The node is a DFG node whose first child is an input of other types than its own. -/
def badInput (g : Hugr Ops.Op Meta) (n : Nat) : Bool :=
  match g.ops n, g.children n with
  | .dfg sig, i :: _ =>
    match g.ops i with
    | .input ts => decide (ts ≠ sig.input)
    | _ => false
  | _, _ => false

theorem badInput_invalid {g : Hugr Ops.Op Meta} {n : Nat} (hn : g.live n = true) (hb : badInput g n = true) :
    ¬ Valid C g := by
  intro hv
  have hc := hv.children n hn
  unfold badInput at hb
  unfold ChildrenOk at hc
  cases hop : g.ops n <;> rw [hop] at hb hc <;> try (exfalso; exact Bool.false_ne_true hb)
  simp only [body] at hc
  obtain ⟨i, o, rest, h1, h2, _⟩ := hc
  rw [h1] at hb
  simp only [h2] at hb
  simp at hb

/-- The node of the result is live and has a bad input. -/
def AcResult.bad? (n : Nat) : Option (AcResult (Hugr Ops.Op Meta)) → Bool
  | some (.ok g) => g.live n && badInput g n
  | _ => false

/-- **C56, finding** The pass inlines calls with type arguments as well, and makes an invalid Hugr of a
valid one. -/
theorem C56_polymorphic_refuted : IsTree (built polyHistory) ∧ Valid anaContext (built polyHistory) ∧
    ∃ g, inlineAcyclic anaContext.types (fun _ _ => true) allocEnd 100 (built polyHistory) = some (.ok g) ∧
      ∀ C : Validate.Context, ¬ Valid C g := by
  obtain ⟨h1, h2, _⟩ := C54_polymorphic_refuted
  refine ⟨h1, h2, ?_⟩
  have hb : AcResult.bad? 4 (inlineAcyclic anaContext.types (fun _ _ => true) allocEnd 100 (built polyHistory)) = true := by
    decide +kernel
  cases hr : inlineAcyclic anaContext.types (fun _ _ => true) allocEnd 100 (built polyHistory) with
  | none => rw [hr] at hb; cases hb
  | some r =>
    cases r with
    | panic => rw [hr] at hb; cases hb
    | ok g =>
      rw [hr] at hb
      simp only [AcResult.bad?, Bool.and_eq_true] at hb
      exact ⟨g, rfl, fun C => badInput_invalid hb.1 hb.2⟩

/-! ## C36 for valid Hugrs -/

/-- **C36** Dead function removal takes away exactly the dead functions of a valid Hugr. -/
theorem C36_valid_removes_exactly (ht : IsTree h) (hv : Valid C h) (hone : OneSource h) (debug : Bool)
    (entries : List Nat) (he : ∀ e ∈ entries, h.hier.parent e = some h.moduleRoot ∧ ∃ n s, h.ops e = .funcDefn n s) :
    ∃ g, removeDeadFuncs h debug entries = .ok g ∧ IsTree g ∧ LinksOk g ∧
      WithoutNodes h (fun n => ∃ f, DeadFunc h entries f ∧ Above h.hier.parent n f) g :=
  C36_removes_exactly h ht (valid_linksOk ht hv) (valid_staticOk ht hv hone) (valid_oneModule ht hv) debug entries he

/-- The hypotheses are met; `k` is used only by `f`, which is used by the entrypoint. -/
example : ∃ g, removeDeadFuncs acyclicHugr true [] = .ok g ∧ IsTree g ∧ LinksOk g ∧
    WithoutNodes acyclicHugr (fun n => ∃ f, DeadFunc acyclicHugr [] f ∧ Above acyclicHugr.hier.parent n f) g :=
  C36_valid_removes_exactly acyclic_valid.1 acyclic_valid.2 acyclic_inlines.one true [] (by simp)

end Verif.Patch
