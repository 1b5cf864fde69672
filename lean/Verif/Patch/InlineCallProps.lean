import Verif.Patch.InlineCallRuns
import Verif.Patch.InlineDfgFindings

/-!
# C54 and C55: inlining a call
-/
namespace Verif.Patch

open Verif.Graph Verif.Ops Verif.Passes Verif.Validate Verif.Dataflow

variable {Meta W E : Type} {C : Validate.Context} {h : Hugr Ops.Op Meta}

/-- The node `n` is a call with type arguments `targs`, of the function `f` and of no other. -/
structure IsCall (h : Hugr Ops.Op Meta) (n f : Nat) (targs : List Types.Term) (inst : Types.Signature) : Prop where
  live : h.live n = true
  op : ∃ sig, h.ops n = .call sig targs inst
  link : ∃ l ∈ h.links, l.dst = n ∧ l.dstPort = inst.input.length ∧ l.src = f
  only : ∀ l ∈ h.links, l.dst = n → l.dstPort = inst.input.length → l.src = f

/-- The indices for the copies: as many as there are nodes inside `f`, and not in use. -/
structure Vacant (h : Hugr Ops.Op Meta) (f : Nat) (news : List Nat) : Prop where
  nodup : news.Nodup
  free : ∀ x ∈ news, h.live x = false
  enough : ((h.descendants f).drop 1).length = news.length
  /-- No operation is stored where there is no node. -/
  blank : ∀ x ∈ news, ¬ IsDefn h x

theorem staticSource_eq {n f : Nat} {targs : List Types.Term} {inst : Types.Signature}
    (hc : IsCall h n f targs inst) : staticSource h n = some f := by
  obtain ⟨_, ⟨sig, hop⟩, ⟨l, hl, h1, h2, h3⟩, honly⟩ := hc
  unfold staticSource
  rw [hop, call_static]
  simp only []
  unfold Hugr.linkedOutputs
  have hm : l ∈ h.links.filter (fun l => decide (l.dst = n) && decide (l.dstPort = inst.input.length)) := by
    rw [List.mem_filter]; exact ⟨hl, by simp [h1, h2]⟩
  cases hf : h.links.filter (fun l => decide (l.dst = n) && decide (l.dstPort = inst.input.length)) with
  | nil => rw [hf] at hm; simp at hm
  | cons x xs =>
    have hx : x ∈ h.links.filter (fun l => decide (l.dst = n) && decide (l.dstPort = inst.input.length)) := by
      rw [hf]; simp
    simp only [List.mem_filter, Bool.and_eq_true, decide_eq_true_eq] at hx
    simp [honly x hx.1 hx.2.1 hx.2.2]

theorem isCall_parent (ht : IsTree h) (hv : Valid C h) {n f : Nat} {targs : List Types.Term}
    {inst : Types.Signature} (hc : IsCall h n f targs inst) : ∃ r, h.hier.parent f = some r := by
  obtain ⟨l, hl, _, _, rfl⟩ := hc.link
  obtain ⟨_, _, _, p, hp, _⟩ := hv.kinds l hl
  exact ⟨p, hp⟩

/-- **C54** A call of a function that is not around the call can be inlined, without panic. The call
becomes a DFG node with the signature of the function and a copy of its body; nothing else changes. If
there are type arguments, they must fit the operations of the function. -/
theorem C54_inline (ht : IsTree h) (hv : Valid C h) {n f : Nat} {targs : List Types.Term}
    {inst : Types.Signature} (hc : IsCall h n f targs inst) {name : String} {sig : Types.PolyFunc}
    (hf : h.ops f = .funcDefn name sig) (hout : ¬ Inside h f n) {news : List Nat} (hnew : Vacant h f news)
    {env : Types.Env} (hsub : targs ≠ [] → ∀ a, Inside h f a → ((h.ops a).subst env targs).isSome = true) :
    ∃ g nodes μ, inlineCall env h n news = .ok g ∧ IsTree g ∧
      CallInlined (inlineSub env targs) h n f inst.input.length sig.body nodes μ g ∧
      ∀ a ∈ nodes, μ a ∈ news := by
  have hss := staticSource_eq hc
  obtain ⟨hn, ⟨sig', hop⟩, ⟨l, hl, h1, h2, h3⟩, honly⟩ := hc
  obtain ⟨e, hlen, _⟩ := call_target ht hv hop hf hl h1 h2 h3
  obtain ⟨h0, he, hem⟩ := emptyCall_eq ht hv hn (s := sig.body) hop hlen
  have ht0 := hem.tree ht
  have hlf : h.live f = true := h3 ▸ (live_of_link ht hv hl).1.1
  have hne : n ≠ f := by rintro rfl; rw [hop] at hf; cases hf
  obtain ⟨g, hg, htg, hco⟩ := copyDescendants_copied (sub := inlineSub env targs) (root := f) (np := n)
    (news := news) ht0 (by rw [hem.live]; exact hlf) (by rw [hem.live]; exact hn)
    (by rw [hem.inside]; exact hout) hnew.nodup (by rw [hem.live]; exact hnew.free)
    (by rw [hem.descendants]; exact hnew.enough)
    (by
      intro a ha
      rw [hem.inside] at ha
      rw [hem.ops a (fun e => hout (e ▸ ha))]
      unfold inlineSub
      by_cases ht : targs = []
      · rw [if_pos ht]; rfl
      · rw [if_neg ht]; exact hsub ht a ha)
  refine ⟨g, _, _, ?_, htg, ⟨h0, hem, hco⟩, ?_⟩
  · unfold inlineCall inlineCallVerify
    rw [hop, hss]
    simp only [hf, he]
    unfold typeArgs
    simp only [hg]
  · intro a ha
    refine (List.of_mem_zip (copy_mem ?_ ha)).2
    rw [hem.descendants]; exact hnew.enough

/-- **C54** Inlining fails exactly for nodes that are no calls, and for calls of functions that are
declared and not defined. -/
theorem C54_refused (ht : IsTree h) (hv : Valid C h) (env : Types.Env) (news : List Nat) (n : Nat) :
    (inlineCall env h n news = .notCallNode ↔ ∀ sig targs inst, h.ops n ≠ .call sig targs inst) ∧
    ∀ f targs inst, IsCall h n f targs inst →
      ((∃ f', inlineCall env h n news = .callTargetNotFuncDefn f') ↔ ∃ name sig, h.ops f = .funcDecl name sig) := by
  constructor
  · constructor
    · intro hi sig targs inst hop
      unfold inlineCall inlineCallVerify at hi
      rw [hop] at hi
      simp only [] at hi
      cases hs : staticSource h n with
      | none => rw [hs] at hi; simp at hi
      | some f =>
        rw [hs] at hi
        simp only [] at hi
        cases hf : h.ops f <;> rw [hf] at hi <;> simp only [reduceCtorEq] at hi
        revert hi
        cases emptyCall h n _ with
        | none => simp
        | some h1 =>
          simp only []
          cases copyDescendants _ h1 f n news <;> simp
    · intro hn
      unfold inlineCall inlineCallVerify
      cases hop : h.ops n <;> simp only []
      exact absurd hop (hn _ _ _)
  · intro f targs inst hc
    have hss := staticSource_eq hc
    obtain ⟨hn, ⟨sig', hop⟩, ⟨l, hl, h1, h2, h3⟩, honly⟩ := hc
    have hkind : (∃ name sig, h.ops f = .funcDefn name sig) ∨ ∃ name sig, h.ops f = .funcDecl name sig := by
      obtain ⟨kind, k1, k2⟩ := link_kinds hv hl
      rw [h1, h2, hop, call_ports] at k2
      have h3' : kind = .function sig' := by simpa using k2.symm
      unfold srcKind at k1
      rw [h3, h3'] at k1
      have hm := List.mem_of_getElem? k1
      cases ho : h.ops f <;> rw [ho] at hm <;> simp [Op.ports] at hm
      · exact .inl ⟨_, _, rfl⟩
      · exact .inr ⟨_, _, rfl⟩
    constructor
    · rintro ⟨f', hi⟩
      rcases hkind with ⟨name, sig, hf⟩ | hf
      · exfalso
        unfold inlineCall inlineCallVerify at hi
        rw [hop, hss] at hi
        simp only [hf] at hi
        revert hi
        cases emptyCall h n _ with
        | none => simp
        | some h1 =>
          simp only []
          cases copyDescendants _ h1 f n news <;> simp
      · exact hf
    · rintro ⟨name, sig, hf⟩
      refine ⟨f, ?_⟩
      unfold inlineCall inlineCallVerify
      rw [hop, hss]
      simp only [hf]

/-- **C54, finding** Inlining a call inside the function that it calls, of a valid Hugr, always panics:
the copies become children of the call while what is inside the function is still being enumerated. -/
theorem C54_recursive_panics (ht : IsTree h) (hv : Valid C h) {n f : Nat} {targs : List Types.Term}
    {inst : Types.Signature} (hc : IsCall h n f targs inst) {name : String} {sig : Types.PolyFunc}
    (hf : h.ops f = .funcDefn name sig) (hin : Inside h f n) {news : List Nat} (hnew : Vacant h f news)
    (env : Types.Env) : inlineCall env h n news = .panic := by
  have hss := staticSource_eq hc
  obtain ⟨hn, ⟨sig', hop⟩, ⟨l, hl, h1, h2, h3⟩, honly⟩ := hc
  obtain ⟨e, hlen, _⟩ := call_target ht hv hop hf hl h1 h2 h3
  obtain ⟨h0, he, hem⟩ := emptyCall_eq ht hv hn (s := sig.body) hop hlen
  have ht0 := hem.tree ht
  have hlf : h.live f = true := h3 ▸ (live_of_link ht hv hl).1.1
  have hp := copyDescendants_panic (sub := inlineSub env targs) (root := f) (np := n)
    (news := news) ht0 (by rw [hem.live]; exact hlf)
    (by rw [hem.inside]; exact hin) hnew.nodup (by rw [hem.live]; exact hnew.free)
    (by rw [hem.descendants]; exact hnew.enough)
  unfold inlineCall inlineCallVerify
  rw [hop, hss]
  simp only [hf, he]
  unfold typeArgs
  simp only [hp]

/-- **C55** Inlining a call without type arguments does not change what functions return: for all inputs
the same results are possible, whatever the operations of extensions do, as long as copies of operations
and constants do what the originals do. -/
theorem C55_inline_returns_partial (ht : IsTree h) (hv : Valid C h) {n f : Nat} {inst : Types.Signature}
    (hc : IsCall h n f [] inst) {name : String} {sig : Types.PolyFunc}
    (hf : h.ops f = .funcDefn name sig) (hout : ¬ Inside h f n) {news : List Nat} (hnew : Vacant h f news)
    {env : Types.Env} :
    ∃ g, ∃ orig : Nat → Nat, inlineCall env h n news = .ok g ∧ (∀ x, h.live x = true → orig x = x) ∧
      ∀ (S S' : Sem W E), S' = { S with ext := fun x => S.ext (orig x), const := fun x => S.const (orig x) } →
      ∀ k args outs, Returns h S k args outs ↔ Returns g S' k args outs := by
  obtain ⟨g, nodes, μ, hg, htg, ⟨h0, hem, hco⟩, hμ⟩ := C54_inline ht hv hc hf hout hnew (env := env) (by simp)
  obtain ⟨r, hr⟩ := isCall_parent ht hv hc
  obtain ⟨hn, ⟨sig', hop⟩, ⟨l, hl, h1, h2, h3⟩, honly⟩ := hc
  obtain ⟨rfl, hlen⟩ := call_target ht hv hop hf hl h1 h2 h3
  have hsub : inlineSub env [] = some := by
    funext op; unfold inlineSub; rw [if_pos rfl]
  rw [hsub] at hco
  have z : CallAt C h h0 g n f r name sig [] inst nodes μ :=
    ⟨ht, hv, htg, hn, hop, hf, hr, hlen, ⟨l, hl, h1, h2, h3⟩, honly, hout, hem, hco,
      fun a ha => hnew.blank _ (hμ a ha)⟩
  refine ⟨g, original nodes μ, hg, fun x hx => CallAt.orig_old (z.old hx), ?_⟩
  rintro S S' rfl k args outs
  exact z.cover.returns_iff

/-! ## Examples -/

/-- `main` (1) calls `f` (6) after the node 5. `f` swaps its inputs in a DFG node (9) and returns true
for the second. -/
def swapCallHistory : List (Cmd Ops.Op String) :=
  [ .addNodeWithParent 1 0 (.funcDefn "main" ⟨[], bool2⟩),
    .addNodeWithParent 2 1 (.input [bool, bool]), .addNodeWithParent 3 1 (.output [bool, bool]),
    .addNodeWithParent 4 1 (.call ⟨[], bool2⟩ [] bool2), .addNodeWithParent 5 1 (.tag 0 [[], []]),
    .addNodeWithParent 6 0 (.funcDefn "f" ⟨[], bool2⟩),
    .addNodeWithParent 7 6 (.input [bool, bool]), .addNodeWithParent 8 6 (.output [bool, bool]),
    .addNodeWithParent 9 6 (.dfg bool1),
    .addNodeWithParent 10 9 (.input [bool]), .addNodeWithParent 11 9 (.output [bool]),
    .addNodeWithParent 12 6 (.tag 1 [[], []]),
    .connect ⟨2, 0, 4, 0⟩, .connect ⟨2, 1, 4, 1⟩, .connect ⟨6, 0, 4, 2⟩, .connect ⟨5, 1, 4, 3⟩,
    .connect ⟨4, 0, 3, 0⟩, .connect ⟨4, 1, 3, 1⟩,
    .connect ⟨7, 1, 9, 0⟩, .connect ⟨10, 0, 11, 0⟩, .connect ⟨9, 0, 8, 0⟩, .connect ⟨12, 0, 8, 1⟩ ]

def swapCallHugr : Hugr Ops.Op String := built swapCallHistory

theorem call_valid : IsTree swapCallHugr ∧ Valid anaContext swapCallHugr := by
  obtain ⟨h1, h2⟩ := built_ok swapCallHistory (by decide +kernel) (by decide +kernel)
  exact ⟨h1, (C47_validate_iff_partial _ _ h1 h2).1 (by decide +kernel)⟩

theorem call_isCall : IsCall swapCallHugr 4 6 [] bool2 :=
  ⟨by decide +kernel, ⟨⟨[], bool2⟩, rfl⟩, ⟨⟨6, 0, 4, 2⟩, by decide +kernel⟩, by decide +kernel⟩

theorem call_vacant : Vacant swapCallHugr 6 [13, 14, 15, 16, 17, 18] := by
  refine ⟨by decide, by decide +kernel, by decide +kernel, ?_⟩
  intro x hx
  simp only [List.mem_cons, List.not_mem_nil, or_false] at hx
  rcases hx with rfl | rfl | rfl | rfl | rfl | rfl <;> (rintro ⟨a, b, hab⟩; cases hab)

theorem call_outside : ¬ Inside swapCallHugr 6 4 := by
  intro h
  have := ((descendants_enumerates call_valid.1 (n := 6) (by decide +kernel)).mem 4).2
    ((inside_iff call_valid.1).1 h).1
  revert this; decide +kernel

/-- The links of the result. -/
def CallInlining.links? : CallInlining Meta → Option (List Link)
  | .ok g => some g.links
  | _ => none

def CallInlining.children? (n : Nat) : CallInlining Meta → List Nat
  | .ok g => g.children n
  | _ => []

/-- The hypotheses of `C54_inline` are met, and this is the result: the call has the copies as children,
without the link from the function, and is still ordered after 5. -/
example : (∃ g nodes μ, inlineCall anaContext.types swapCallHugr 4 [13, 14, 15, 16, 17, 18] = .ok g ∧ IsTree g ∧
      CallInlined (inlineSub anaContext.types []) swapCallHugr 4 6 2 bool2 nodes μ g ∧ ∀ a ∈ nodes, μ a ∈ [13, 14, 15, 16, 17, 18]) ∧
    (inlineCall anaContext.types swapCallHugr 4 [13, 14, 15, 16, 17, 18]).children? 4 = [13, 14, 15, 16] ∧
    (inlineCall anaContext.types swapCallHugr 4 [13, 14, 15, 16, 17, 18]).children? 15 = [17, 18] ∧
    (inlineCall anaContext.types swapCallHugr 4 [13, 14, 15, 16, 17, 18]).links? =
      some [⟨2, 0, 4, 0⟩, ⟨2, 1, 4, 1⟩, ⟨4, 0, 3, 0⟩, ⟨4, 1, 3, 1⟩, ⟨7, 1, 9, 0⟩, ⟨10, 0, 11, 0⟩,
        ⟨9, 0, 8, 0⟩, ⟨12, 0, 8, 1⟩, ⟨5, 1, 4, 2⟩, ⟨13, 1, 15, 0⟩, ⟨17, 0, 18, 0⟩, ⟨15, 0, 14, 0⟩, ⟨16, 0, 14, 1⟩] :=
  ⟨C54_inline call_valid.1 call_valid.2 call_isCall (sig := ⟨[], bool2⟩) rfl call_outside call_vacant (by simp),
    by decide +kernel⟩

/-- The wires when the function is given `a` and `b`. -/
def callOuts (a b : Val Nat) : Nat → List (Val Nat)
  | 2 => [a, b]
  | 4 => [b, .sum 1 []]
  | 5 => [.sum 0 []]
  | 7 => [a, b]
  | 9 => [b]
  | 10 => [b]
  | 12 => [.sum 1 []]
  | _ => []

def callIns (a b : Val Nat) : Nat → List (Val Nat)
  | 4 => [a, b]
  | 9 => [b]
  | _ => []

/-- `main` returns its second input and true. -/
theorem call_returns (S : Sem Nat Nat) (a b : Val Nat) :
    Returns swapCallHugr S 1 [a, b] [b, .sum 1 []] := by
  have c1 : swapCallHugr.children 1 = [2, 3, 4, 5] := by decide +kernel
  have c6 : swapCallHugr.children 6 = [7, 8, 9, 12] := by decide +kernel
  have c9 : swapCallHugr.children 9 = [10, 11] := by decide +kernel
  let σ : Wires Nat := fun n => if n ∈ [2, 3, 4, 5] then outWires (callOuts a b n) else noWires n
  let σf : Wires Nat := fun n => if n ∈ [7, 8, 9, 12] then outWires (callOuts a b n) else noWires n
  let σd : Wires Nat := fun n => if n ∈ [10, 11] then outWires (callOuts a b n) else σf n
  refine ⟨⟨_, _, rfl⟩, σ, ?_⟩
  refine .graph (i := 2) (o := 3) (ins := callIns a b) (outs := callOuts a b) ⟨_, c1⟩ ?_ rfl rfl rfl ?_ ?_ ?_ ?_ ?_
  · intro n hn
    rw [c1] at hn
    exact if_neg hn
  · rintro n ⟨hn, h2, h3⟩
    rw [c1] at hn
    simp only [List.mem_cons, List.not_mem_nil, or_false] at hn
    rcases hn with rfl | rfl | rfl | rfl
    · exact absurd rfl h2
    · exact absurd rfl h3
    · refine ⟨rfl, fun k v hk => ?_⟩
      match k with
      | 0 => exact ⟨⟨2, 0, 4, 0⟩, by decide +kernel, rfl, rfl, hk⟩
      | 1 => exact ⟨⟨2, 1, 4, 1⟩, by decide +kernel, rfl, rfl, hk⟩
      | k + 2 => simp [callIns] at hk
    · exact ⟨rfl, fun k v hk => by simp [callIns] at hk⟩
  · rintro n ⟨hn, h2, h3⟩
    rw [c1] at hn
    exact if_pos hn
  · rintro n ⟨hn, h2, h3⟩
    rw [c1] at hn
    simp only [List.mem_cons, List.not_mem_nil, or_false] at hn
    rcases hn with rfl | rfl | rfl | rfl <;> first | rfl | exact absurd rfl h3
  · rintro n ⟨hn, h2, h3⟩
    rw [c1] at hn
    simp only [List.mem_cons, List.not_mem_nil, or_false] at hn
    rcases hn with rfl | rfl | rfl | rfl
    · exact absurd rfl h2
    · exact absurd rfl h3
    · refine .call (f := 6) (args := [a, b]) (σ := σf)
        (Calls.direct (h := swapCallHugr) (n := 4) (sig := ⟨[], bool2⟩) (targs := []) (inst := bool2)
          (l := ⟨6, 0, 4, 2⟩) rfl (by decide +kernel) rfl rfl) ⟨_, _, rfl⟩ rfl ?_
      refine .graph (i := 7) (o := 8) (ins := callIns a b) (outs := callOuts a b) ⟨_, c6⟩ ?_ rfl rfl rfl ?_ ?_ ?_ ?_ ?_
      · intro n hn
        rw [c6] at hn
        exact if_neg hn
      · rintro n ⟨hn, h2, h3⟩
        rw [c6] at hn
        simp only [List.mem_cons, List.not_mem_nil, or_false] at hn
        rcases hn with rfl | rfl | rfl | rfl
        · exact absurd rfl h2
        · exact absurd rfl h3
        · refine ⟨rfl, fun k v hk => ?_⟩
          match k with
          | 0 => exact ⟨⟨7, 1, 9, 0⟩, by decide +kernel, rfl, rfl, hk⟩
          | k + 1 => simp [callIns] at hk
        · exact ⟨rfl, fun k v hk => by simp [callIns] at hk⟩
      · rintro n ⟨hn, h2, h3⟩
        rw [c6] at hn
        exact if_pos hn
      · rintro n ⟨hn, h2, h3⟩
        rw [c6] at hn
        simp only [List.mem_cons, List.not_mem_nil, or_false] at hn
        rcases hn with rfl | rfl | rfl | rfl <;> first | rfl | exact absurd rfl h3
      · rintro n ⟨hn, h2, h3⟩
        rw [c6] at hn
        simp only [List.mem_cons, List.not_mem_nil, or_false] at hn
        rcases hn with rfl | rfl | rfl | rfl
        · exact absurd rfl h2
        · exact absurd rfl h3
        · refine .dfg (sig := bool1) (σ := σd) rfl ?_
          refine .graph (i := 10) (o := 11) (ins := callIns a b) (outs := callOuts a b) ⟨_, c9⟩ ?_ rfl rfl rfl ?_ ?_ ?_ ?_ ?_
          · intro n hn
            rw [c9] at hn
            exact if_neg hn
          all_goals first
            | (rintro n ⟨hn, h2, h3⟩
               rw [c9] at hn
               simp only [List.mem_cons, List.not_mem_nil, or_false] at hn
               rcases hn with rfl | rfl
               · exact absurd rfl h2
               · exact absurd rfl h3)
            | skip
          refine ⟨rfl, fun k v hk => ?_⟩
          match k with
          | 0 => exact ⟨⟨10, 0, 11, 0⟩, by decide +kernel, rfl, rfl, hk⟩
          | k + 1 => simp [callOuts, callIns] at hk
        · exact .leaf (.tag (t := 1) (variants := [[], []]) rfl)
      · refine ⟨rfl, fun k v hk => ?_⟩
        match k with
        | 0 => exact ⟨⟨9, 0, 8, 0⟩, by decide +kernel, rfl, rfl, hk⟩
        | 1 => exact ⟨⟨12, 0, 8, 1⟩, by decide +kernel, rfl, rfl, hk⟩
        | k + 2 => simp [callOuts, callIns] at hk
    · exact .leaf (.tag (t := 0) (variants := [[], []]) rfl)
  · refine ⟨rfl, fun k v hk => ?_⟩
    match k with
    | 0 => exact ⟨⟨4, 0, 3, 0⟩, by decide +kernel, rfl, rfl, hk⟩
    | 1 => exact ⟨⟨4, 1, 3, 1⟩, by decide +kernel, rfl, rfl, hk⟩
    | k + 2 => simp at hk

/-- So it does after inlining. -/
example (S : Sem Nat Nat) (a b : Val Nat) :
    ∃ g, ∃ S' : Sem Nat Nat, inlineCall anaContext.types swapCallHugr 4 [13, 14, 15, 16, 17, 18] = .ok g ∧
      Returns g S' 1 [a, b] [b, .sum 1 []] := by
  obtain ⟨g, orig, hg, _, hr⟩ := C55_inline_returns_partial (W := Nat) (E := Nat) call_valid.1 call_valid.2 call_isCall
    (sig := ⟨[], bool2⟩) rfl call_outside call_vacant (env := anaContext.types)
  exact ⟨g, _, hg, (hr S _ rfl 1 _ _).1 (call_returns S a b)⟩

/-- `C54_refused` applies to the input of `main`. -/
example : inlineCall anaContext.types swapCallHugr 2 [] = .notCallNode :=
  (C54_refused call_valid.1 call_valid.2 anaContext.types [] 2).1.2 fun _ _ _ h => nomatch h

/-- The function 1 calls itself (4). -/
def recursiveHistory : List (Cmd Ops.Op String) :=
  [ .addNodeWithParent 1 0 (.funcDefn "f" ⟨[], bool1⟩),
    .addNodeWithParent 2 1 (.input [bool]), .addNodeWithParent 3 1 (.output [bool]),
    .addNodeWithParent 4 1 (.call ⟨[], bool1⟩ [] bool1),
    .connect ⟨2, 0, 4, 0⟩, .connect ⟨1, 0, 4, 1⟩, .connect ⟨4, 0, 3, 0⟩ ]

theorem recursive_valid : IsTree (built recursiveHistory) ∧ Valid anaContext (built recursiveHistory) := by
  obtain ⟨h1, h2⟩ := built_ok recursiveHistory (by decide +kernel) (by decide +kernel)
  exact ⟨h1, (C47_validate_iff_partial _ _ h1 h2).1 (by decide +kernel)⟩

/-- `C54_recursive_panics` applies to a valid Hugr. -/
example : inlineCall anaContext.types (built recursiveHistory) 4 [5, 6, 7] = .panic := by
  refine C54_recursive_panics recursive_valid.1 recursive_valid.2 (f := 1) (targs := []) (inst := bool1)
    ⟨by decide +kernel, ⟨⟨[], bool1⟩, rfl⟩, ⟨⟨1, 0, 4, 1⟩, by decide +kernel⟩, by decide +kernel⟩
    (sig := ⟨[], bool1⟩) rfl (.child (by decide +kernel)) ⟨by decide, by decide +kernel, by decide +kernel, ?_⟩ _
  intro x hx
  simp only [List.mem_cons, List.not_mem_nil, or_false] at hx
  rcases hx with rfl | rfl | rfl <;> (rintro ⟨a, b, hab⟩; cases hab)

/-- Inlining the call `n` succeeds and makes something invalid of the valid Hugr `h`. -/
def BreaksCall (C : Validate.Context) (h : Hugr Ops.Op String) (n : Nat) (news : List Nat) : Prop :=
  IsTree h ∧ Valid C h ∧ ∃ g, inlineCall C.types h n news = .ok g ∧ ¬ Valid C g

/-- The type of the polymorphic identity. -/
def polyId : Types.PolyFunc := ⟨[.runtimeType .linear], ⟨[.variable 0 .linear], [.variable 0 .linear]⟩⟩

/-- The identity (5) is called with a boolean. -/
def polyHistory : List (Cmd Ops.Op String) :=
  [ .addNodeWithParent 1 0 (.funcDefn "main" ⟨[], bool1⟩),
    .addNodeWithParent 2 1 (.input [bool]), .addNodeWithParent 3 1 (.output [bool]),
    .addNodeWithParent 4 1 (.call polyId [.runtime bool] bool1),
    .addNodeWithParent 5 0 (.funcDefn "id" polyId),
    .addNodeWithParent 6 5 (.input [.variable 0 .linear]), .addNodeWithParent 7 5 (.output [.variable 0 .linear]),
    .connect ⟨2, 0, 4, 0⟩, .connect ⟨5, 0, 4, 1⟩, .connect ⟨4, 0, 3, 0⟩, .connect ⟨6, 0, 7, 0⟩ ]

/-- What validation says of the result. -/
def brokenCall (C : Validate.Context) (h : Hugr Ops.Op String) (n : Nat) (news : List Nat) : Option VError :=
  match inlineCall C.types h n news with
  | .ok g => match validate C g with
    | .error e => some e
    | _ => none
  | _ => none

/-- **C54, finding** Inlining a call with type arguments makes a valid Hugr invalid: the DFG node that
replaces the call gets the signature of the function without the type arguments, whereas the operations
inside get them. -/
theorem C54_polymorphic_refuted : BreaksCall anaContext (built polyHistory) 4 [8, 9] := by
  obtain ⟨h1, h2⟩ := built_ok polyHistory (by decide +kernel) (by decide +kernel)
  have hv : Valid anaContext (built polyHistory) := (C47_validate_iff_partial _ _ h1 h2).1 (by decide +kernel)
  refine ⟨h1, hv, ?_⟩
  have hout : ¬ Inside (built polyHistory) 5 4 := by
    intro h
    have := ((descendants_enumerates h1 (n := 5) (by decide +kernel)).mem 4).2 ((inside_iff h1).1 h).1
    revert this; decide +kernel
  obtain ⟨g, nodes, μ, hg, ht, _⟩ := C54_inline h1 hv (n := 4) (f := 5) (targs := [.runtime bool]) (inst := bool1)
    ⟨by decide +kernel, ⟨polyId, rfl⟩, ⟨⟨5, 0, 4, 1⟩, by decide +kernel⟩, by decide +kernel⟩
    (sig := polyId) rfl hout (news := [8, 9]) (env := anaContext.types)
    ⟨by decide, by decide +kernel, by decide +kernel, by
      intro x hx
      simp only [List.mem_cons, List.not_mem_nil, or_false] at hx
      rcases hx with rfl | rfl <;> (rintro ⟨a, b, hab⟩; cases hab)⟩
    (by
      intro _ a ha
      have := ((descendants_enumerates h1 (n := 5) (by decide +kernel)).mem a).2 ((inside_iff h1).1 ha).1
      have e : (built polyHistory).descendants 5 = [5, 6, 7] := by decide +kernel
      rw [e] at this
      simp only [List.mem_cons, List.not_mem_nil, or_false] at this
      rcases this with rfl | rfl | rfl <;> decide +kernel)
  refine ⟨g, hg, fun hvg => ?_⟩
  have hb : (brokenCall anaContext (built polyHistory) 4 [8, 9]).isSome = true := by decide +kernel
  have := (C47_validate_iff_partial _ _ ht (valid_linksOk ht hvg)).2 hvg
  unfold brokenCall at hb
  rw [hg] at hb
  simp only [this] at hb
  cases hb

end Verif.Patch
