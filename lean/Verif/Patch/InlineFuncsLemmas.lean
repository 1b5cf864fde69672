import Verif.Patch.InlineFuncs
import Verif.Patch.StaticValid
import Verif.Patch.InlineCallValidProps
import Mathlib.Tactic.Common
import Mathlib.Tactic.Ring
import Mathlib.Algebra.Order.BigOperators.Group.List
import Mathlib.Logic.Relation

/-!
# Lemmas about inlining calls of functions that are not on cycles
-/
namespace Verif.Patch

open Verif.Graph Verif.Ops Verif.Passes Verif.Validate Verif.Dataflow

variable {Meta W E : Type} {C : Validate.Context} {h h0 g : Hugr Ops.Op Meta}

/-- `n` is a call of `t`. -/
def CallsAt (h : Hugr Ops.Op Meta) (n t : Nat) : Prop :=
  isCall (h.ops n) = true ∧ ∃ l, StaticLink h l ∧ l.dst = n ∧ l.src = t

/-- Every call is of a function without type parameters: it has no type arguments, and the type of the
function as it is. -/
def PlainCalls (h : Hugr Ops.Op Meta) : Prop :=
  ∀ n sig targs inst, h.live n = true → h.ops n = .call sig targs inst → targs = [] ∧ sig = ⟨[], inst⟩

/-- `ex n` is enough for `n` and for everything inside, also after inlining. -/
structure Budget (h : Hugr Ops.Op Meta) (T : List Nat) (ex : Nat → Nat) : Prop where
  kids : ∀ n, 1 + ((h.children n).map ex).sum ≤ ex n
  call : ∀ n t, t ∈ T → CallsAt h n t → 1 + ((h.children t).map ex).sum ≤ ex n

/-! ## There is a budget -/

/-- What has to be paid for `n`. -/
def Nxt (h : Hugr Ops.Op Meta) (T : List Nat) (n c : Nat) : Prop :=
  c ∈ h.children n ∨ ∃ t ∈ T, CallsAt h n t ∧ c ∈ h.children t

theorem nxt_path (ht : IsTree h) {T : List Nat} (hT : ∀ t ∈ T, h.hier.parent t = some h.moduleRoot) {n c : Nat}
    (hp : Relation.TransGen (Nxt h T) n c) :
    Inside h n c ∨ ∃ t ∈ T, Inside h t c ∧ ∀ k, h.hier.parent k = some h.moduleRoot → Inside h k n →
      Relation.TransGen (Uses h) k t := by
  have hcall : ∀ {n c}, Nxt h T n c → Inside h n c ∨ ∃ t ∈ T, Inside h t c ∧ ∀ k, Inside h k n → Uses h k t := by
    rintro n c (hc | ⟨t, htT, ⟨_, l, hl, rfl, rfl⟩, hc⟩)
    · exact .inl (Inside.child ((ht.child_iff _ _).1 hc))
    · refine .inr ⟨_, htT, Inside.child ((ht.child_iff _ _).1 hc), fun k hk => ?_⟩
      obtain ⟨h1, h2⟩ := (inside_iff ht).1 hk
      exact ⟨l, hl, rfl, hT _ htT, h2, h1⟩
  have trans : ∀ {a b c}, Inside h a b → Inside h b c → Inside h a c := by
    rintro a b c ⟨p, hp, hpa⟩ ⟨q, hq, hqb⟩
    exact ⟨q, hq, hqb.trans (.step hp hpa)⟩
  induction hp with
  | single hs =>
    rcases hcall hs with h1 | ⟨t, htT, h1, h2⟩
    · exact .inl h1
    · exact .inr ⟨t, htT, h1, fun k _ hk => .single (h2 k hk)⟩
  | tail _ hs ih =>
    rcases hcall hs with h1 | ⟨t, htT, h1, h2⟩
    · rcases ih with h3 | ⟨t, htT, h3, h4⟩
      · exact .inl (trans h3 h1)
      · exact .inr ⟨t, htT, trans h3 h1, h4⟩
    · rcases ih with h3 | ⟨t', htT', h3, h4⟩
      · exact .inr ⟨t, htT, h1, fun k _ hk => .single (h2 k (trans hk h3))⟩
      · exact .inr ⟨t, htT, h1, fun k hk hkn => .tail (h4 k hk hkn) (h2 _ h3)⟩

theorem nxt_acyclic (ht : IsTree h) {T : List Nat} (hT : ∀ t ∈ T, h.hier.parent t = some h.moduleRoot)
    (hac : ∀ t ∈ T, ¬ Relation.TransGen (Uses h) t t) (n : Nat) : ¬ Relation.TransGen (Nxt h T) n n := by
  intro hp
  rcases nxt_path ht hT hp with h1 | ⟨t, htT, h1, h2⟩
  · exact inside_irrefl ht n h1
  · exact hac t htT (h2 t (hT t htT) h1)

open Classical in
/-- How many nodes come after `n`. -/
noncomputable def rank (h : Hugr Ops.Op Meta) (T : List Nat) (n : Nat) : Nat :=
  ((List.range h.cap).filter fun c => decide (Relation.TransGen (Nxt h T) n c)).length

theorem nxt_cap (ht : IsTree h) {T : List Nat} {n c : Nat} (hn : Nxt h T n c) : c < h.cap := by
  rcases hn with hc | ⟨t, _, _, hc⟩
  · exact ht.in_range _ (ht.parent_live _ _ ((ht.child_iff _ _).1 hc)).1
  · exact ht.in_range _ (ht.parent_live _ _ ((ht.child_iff _ _).1 hc)).1

theorem rank_lt (ht : IsTree h) {T : List Nat} (hac : ∀ n, ¬ Relation.TransGen (Nxt h T) n n) {n c : Nat}
    (hn : Nxt h T n c) : rank h T c < rank h T n := by
  classical
  unfold rank
  have hsub : (c :: (List.range h.cap).filter fun x => decide (Relation.TransGen (Nxt h T) c x)) ⊆
      (List.range h.cap).filter fun x => decide (Relation.TransGen (Nxt h T) n x) := by
    intro x hx
    rw [List.mem_filter]
    rcases List.mem_cons.1 hx with rfl | hx
    · exact ⟨List.mem_range.2 (nxt_cap ht hn), by simpa using Relation.TransGen.single hn⟩
    · rw [List.mem_filter] at hx
      exact ⟨hx.1, by simpa using Relation.TransGen.head hn (by simpa using hx.2)⟩
  have hnd : (c :: (List.range h.cap).filter fun x => decide (Relation.TransGen (Nxt h T) c x)).Nodup := by
    rw [List.nodup_cons]
    refine ⟨?_, List.nodup_range.filter _⟩
    rw [List.mem_filter]
    rintro ⟨_, hx⟩
    exact hac c (by simpa using hx)
  have := (List.subperm_of_subset hnd hsub).length_le
  simp only [List.length_cons] at this
  exact this

theorem kids_length (ht : IsTree h) (n : Nat) : (h.children n).length ≤ h.cap := by
  have := (List.subperm_of_subset (ht.child_once n) (l₂ := List.range h.cap) fun x hx =>
    List.mem_range.2 (ht.in_range _ (ht.parent_live _ _ ((ht.child_iff _ _).1 hx)).1)).length_le
  change (h.hier.children n).length ≤ _
  simpa using this

theorem exists_budget (ht : IsTree h) {T : List Nat} (hT : ∀ t ∈ T, h.hier.parent t = some h.moduleRoot)
    (hac : ∀ t ∈ T, ¬ Relation.TransGen (Uses h) t t) : ∃ ex, Budget h T ex := by
  have hacy := nxt_acyclic ht hT hac
  have key : ∀ n t, (∀ c ∈ h.children t, Nxt h T n c) →
      1 + ((h.children t).map fun c => (h.cap + 1) ^ rank h T c).sum ≤ (h.cap + 1) ^ rank h T n := by
    intro n t hc
    by_cases hr : rank h T n = 0
    · have : h.children t = [] := by
        cases e : h.children t with
        | nil => rfl
        | cons c cs =>
          have := rank_lt ht hacy (hc c (by rw [e]; simp))
          omega
      rw [this, hr]; simp
    · obtain ⟨r, hr⟩ := Nat.exists_eq_succ_of_ne_zero hr
      rw [hr]
      have h1 : ((h.children t).map fun c => (h.cap + 1) ^ rank h T c).sum ≤
          (h.children t).length * (h.cap + 1) ^ r := by
        have := List.sum_le_card_nsmul ((h.children t).map fun c => (h.cap + 1) ^ rank h T c) ((h.cap + 1) ^ r) (by
          intro x hx
          obtain ⟨c, hc', rfl⟩ := List.mem_map.1 hx
          refine Nat.pow_le_pow_right (by omega) ?_
          have := rank_lt ht hacy (hc c hc')
          omega)
        simpa using this
      have h2 := Nat.mul_le_mul_right ((h.cap + 1) ^ r) (kids_length ht t)
      have h3 : 1 ≤ (h.cap + 1) ^ r := Nat.one_le_pow _ _ (by omega)
      have h4 : (h.cap + 1) ^ (r + 1) = h.cap * (h.cap + 1) ^ r + (h.cap + 1) ^ r := by ring
      rw [Nat.succ_eq_add_one, h4]
      omega
  refine ⟨fun n => (h.cap + 1) ^ rank h T n, ?_, ?_⟩
  · exact fun n => key n n fun c hc => .inl hc
  · exact fun n t htT hn => key n t fun c hc => .inr ⟨t, htT, hn, hc⟩

/-- What is inside costs less. -/
theorem Budget.inside (ht : IsTree h) {T : List Nat} {ex : Nat → Nat} (hb : Budget h T ex) {n c : Nat}
    (ha : Above h.hier.parent c n) : ex c ≤ ex n := by
  induction ha with
  | refl => exact Nat.le_refl _
  | @step c p n hp _ ih =>
    have h1 := hb.kids p
    have h2 := List.le_sum_of_mem (xs := (h.children p).map ex) (List.mem_map.2 ⟨c, (ht.child_iff _ _).2 hp, rfl⟩)
    omega

/-- A call that there is a budget for is not inside the function that it calls. -/
theorem Budget.outside (ht : IsTree h) {T : List Nat} {ex : Nat → Nat} (hb : Budget h T ex) {n t : Nat}
    (htT : t ∈ T) (hn : CallsAt h n t) : ¬ Inside h t n := by
  rintro hi
  obtain ⟨c, h1, h2⟩ := hi.above.last (fun e => inside_irrefl ht t (by rw [e] at hi; exact hi))
  have h3 := hb.call n t htT hn
  have h4 := List.le_sum_of_mem (xs := (h.children t).map ex) (List.mem_map.2 ⟨c, (ht.child_iff _ _).2 h2, rfl⟩)
  have h5 := hb.inside ht h1
  omega

/-! ## One step -/

namespace CallAt

variable {n f r : Nat} {name : String} {sig : Types.PolyFunc} {targs : List Types.Term} {inst : Types.Signature}
  {nodes : List Nat} {μ : Nat → Nat} (z : CallAt C h h0 g n f r name sig targs inst nodes μ)
include z

theorem staticLink {l : Link} (hl : StaticLink g l) :
    (StaticLink h l ∧ h.live l.dst = true ∧ l.dst ≠ n) ∨
    ∃ s d, StaticLink h ⟨s, l.srcPort, d, l.dstPort⟩ ∧ d ∈ nodes ∧ l.src = μ s ∧ l.dst = μ d := by
  obtain ⟨hl, hs⟩ := hl
  have hne : l.dst ≠ n := by
    rintro e
    rw [e, z.ops_n] at hs
    cases hs
  rcases z.links hl with ⟨h1, _⟩ | ⟨h1, _⟩ | ⟨s, d, h1, h2, h3, h4⟩
  · have hlive := (z.live_link h1).2
    exact .inl ⟨⟨h1, by rw [← z.ops_old (z.old hlive) hne]; exact hs⟩, hlive, hne⟩
  · exact absurd h1 hne
  · exact .inr ⟨s, d, ⟨h1, by rw [← z.ops_new h2, ← h4]; exact hs⟩, h2, h3, h4⟩

theorem oneSource (hone : OneSource h) : OneSource g := by
  intro l l' hl hl' e
  rcases z.staticLink hl with ⟨h1, hd, _⟩ | ⟨s, d, h1, hd, h2, h3⟩ <;>
    rcases z.staticLink hl' with ⟨h1', hd', _⟩ | ⟨s', d', h1', hd', h2', h3'⟩
  · exact hone l l' h1 h1' e
  · exact absurd (e.trans h3') (z.old hd d' hd')
  · exact absurd (e.symm.trans h3) (z.old hd' d hd)
  · have : d = d' := z.copied.inj d hd d' hd' (h3.symm.trans (e.trans h3'))
    subst this
    rw [h2, h2', show s = s' from hone _ _ h1 h1' rfl]

/-- Calls in the result are the calls before, and copies of them. -/
theorem callsAt {x t : Nat} (ht : h.live t = true) (hc : CallsAt g x t)
    (hd : (∃ n s, h.ops t = .funcDefn n s) ∨ ∃ n s, h.ops t = .funcDecl n s) :
    x ≠ n ∧ CallsAt h (original nodes μ x) t ∧ (h.live x = true ∨ ∃ a ∈ nodes, x = μ a) := by
  obtain ⟨hc, l, hl, rfl, rfl⟩ := hc
  rcases z.staticLink hl with ⟨h1, hd, hn⟩ | ⟨s, d, h1, hdn, h2, h3⟩
  · refine ⟨hn, ?_, .inl hd⟩
    rw [orig_old (z.old hd)]
    rw [z.ops_old (z.old hd) hn] at hc
    exact ⟨hc, l, h1, rfl, rfl⟩
  · refine ⟨by rw [h3]; exact z.ne_n hdn, ?_, .inr ⟨d, hdn, h3⟩⟩
    rw [h3, z.ops_new hdn] at hc
    rw [h3, z.orig_new hdn]
    refine ⟨hc, _, h1, rfl, ?_⟩
    by_cases hs : s ∈ nodes
    · exact absurd h2 (z.old ht s hs)
    · rw [h2, z.copied.keep s hs]

theorem callsAt_old {x t : Nat} (hx : h.live x = true) (hn : x ≠ n) (hc : CallsAt h x t) : CallsAt g x t := by
  obtain ⟨hc, l, ⟨hl, hs⟩, rfl, rfl⟩ := hc
  refine ⟨by rw [z.ops_old (z.old hx) hn]; exact hc, l, ⟨z.link_old hl (fun e => absurd e hn), ?_⟩, rfl, rfl⟩
  rw [z.ops_old (z.old hx) hn]; exact hs

theorem plain (hp : PlainCalls h) : PlainCalls g := by
  intro x s ta i hx hop
  rcases z.cases2 hx with h1 | ⟨a, ha, rfl⟩
  · by_cases hn : x = n
    · rw [hn, z.ops_n] at hop; cases hop
    · rw [z.ops_old (z.old h1) hn] at hop
      exact hp x s ta i h1 hop
  · rw [z.ops_new ha] at hop
    exact hp a s ta i (z.live_mem ha) hop

theorem blank (hb : ∀ x, h.live x = false → ¬ IsDefn h x) : ∀ x, g.live x = false → ¬ IsDefn g x := by
  intro x hx hd
  have h1 : ∀ a ∈ nodes, x ≠ μ a := by
    rintro a ha rfl
    rw [(z.liveG (μ a)).2 (.inr ⟨a, ha, rfl⟩)] at hx; cases hx
  have h2 : h.live x = false := by
    cases e : h.live x with
    | false => rfl
    | true => rw [(z.liveG x).2 (.inl e)] at hx; cases hx
  have h3 : x ≠ n := by rintro rfl; rw [z.live] at h2; cases h2
  obtain ⟨a, b, hd⟩ := hd
  rw [z.ops_old h1 h3] at hd
  exact hb x h2 ⟨a, b, hd⟩

theorem budget {T : List Nat} {ex : Nat → Nat} (hb : Budget h T ex) (hf : f ∈ T) (hc : CallsAt h n f)
    (hT : ∀ t ∈ T, h.live t = true ∧ ∃ n s, h.ops t = .funcDefn n s) :
    Budget g T fun x => ex (original nodes μ x) := by
  have hmap : ∀ t, (∀ a ∈ nodes, t ≠ μ a) → ((h.children t).map fun x => ex (original nodes μ x)) = (h.children t).map ex := by
    intro t _
    refine List.map_congr_left fun c hc => ?_
    rw [orig_old (z.old (z.tree.parent_live _ _ ((z.tree.child_iff _ _).1 hc)).1)]
  have hmap2 : ∀ t, ((h.children t).map μ).map (fun x => ex (original nodes μ x)) = (h.children t).map ex := by
    intro t
    rw [List.map_map]
    refine List.map_congr_left fun c hc => ?_
    change ex (original nodes μ (μ c)) = ex c
    rw [z.orig_copy (z.tree.parent_live _ _ ((z.tree.child_iff _ _).1 hc)).1]
  constructor
  · intro x
    by_cases hx : ∃ a ∈ nodes, x = μ a
    · obtain ⟨a, ha, rfl⟩ := hx
      rw [z.kids_new ha, hmap2]
      rw [z.orig_new ha]
      exact hb.kids a
    · have hx' : ∀ a ∈ nodes, x ≠ μ a := fun a ha e => hx ⟨a, ha, e⟩
      by_cases hn : x = n
      · subst hn
        rw [z.kids_n, hmap2]
        rw [orig_old hx']
        exact hb.call _ _ hf hc
      · rw [z.kids_old hx' hn, hmap x hx']
        rw [orig_old hx']
        exact hb.kids x
  · intro x t htT hx
    obtain ⟨hlive, hd⟩ := hT t htT
    obtain ⟨_, h1, _⟩ := z.callsAt hlive hx (.inl hd)
    have hne : t ≠ n := by
      rintro rfl
      obtain ⟨a, b, hd⟩ := hd
      rw [z.call] at hd; cases hd
    rw [z.kids_old (z.old hlive) hne, hmap t (z.old hlive)]
    exact hb.call _ t htT h1

/-- Old nodes have the nodes above them that they had. -/
theorem above_back {x q : Nat} (ha : Above g.hier.parent x q) (hx : h.live x = true) : Above h.hier.parent x q := by
  induction ha with
  | refl => exact .refl _
  | @step x p q hp _ ih =>
    rw [z.parent_old (z.old hx)] at hp
    exact .step hp (ih (z.tree.parent_live _ _ hp).2)

end CallAt

theorem exists_callAt (ht : IsTree h) (hv : Valid C h) {n f : Nat} {inst : Types.Signature}
    (hc : IsCall h n f [] inst) {name : String} {sig : Types.PolyFunc}
    (hf : h.ops f = .funcDefn name sig) (hout : ¬ Inside h f n) {news : List Nat} (hnew : Vacant h f news)
    (env : Types.Env) : ∃ g h0 r nodes μ, inlineCall env h n news = .ok g ∧
      CallAt C h h0 g n f r name sig [] inst nodes μ := by
  obtain ⟨g, nodes, μ, hg, htg, ⟨h0, hem, hco⟩, hμ⟩ := C54_inline ht hv hc hf hout hnew (env := env) (by simp)
  obtain ⟨r, hr⟩ := isCall_parent ht hv hc
  obtain ⟨hn, ⟨sig', hop⟩, ⟨l, hl, h1, h2, h3⟩, honly⟩ := hc
  obtain ⟨rfl, hlen⟩ := call_target ht hv hop hf hl h1 h2 h3
  have hsub : inlineSub env [] = some := by
    funext op; unfold inlineSub; rw [if_pos rfl]
  rw [hsub] at hco
  exact ⟨g, h0, r, nodes, μ, hg, ht, hv, htg, hn, hop, hf, hr, hlen, ⟨l, hl, h1, h2, h3⟩, honly, hout, hem, hco,
      fun a ha => hnew.blank _ (hμ a ha)⟩

/-- The same rules, where constants are looked up elsewhere. -/
def Context.via (C : Validate.Context) (orig : Nat → Nat) : Validate.Context :=
  { C with constOk := fun x => C.constOk (orig x) }

theorem Valid.via (hv : Valid C h) {orig : Nat → Nat} (ho : ∀ x, h.live x = true → orig x = x) :
    Valid (Context.via C orig) h :=
  ⟨hv.tags, hv.ports, hv.contains, hv.children, hv.entrypoint, hv.blocks, hv.acyclic,
    fun n t hn hop => by
      change C.constOk (orig n) = true
      rw [ho n hn]; exact hv.constants n t hn hop,
    hv.inDegree, hv.outDegree, hv.kinds, hv.types, hv.exports⟩

end Verif.Patch
