import Verif.Patch.SimpleReplaceBoundary
import Verif.Patch.InlineDfgProps

/-!
# C58: replacing a subgraph
-/
namespace Verif.Patch

open Verif.Graph Verif.Ops Verif.Passes Verif.Validate Verif.Dataflow

variable {Meta : Type} {C C' : Validate.Context} {h r : Hugr Ops.Op Meta} {s : Subgraph} {p i o : Nat}

theorem values_at {ts : List Types.Ty} {rest : List Kind} {port : Nat} {t : Types.Ty} (hp : ts[port]? = some t) :
    (ts.map Kind.value ++ rest)[port]? = some (.value t) := by
  rw [List.getElem?_append_left (by
    have := (List.getElem?_eq_some_iff.1 hp).1
    simpa using this), List.getElem?_map, hp]
  rfl

theorem portType_ports {n : Nat} {dir : Ops.Dir} {port : Nat} {t : Types.Ty}
    (hp : portType h n dir port = some t) : ((h.ops n).ports dir)[port]? = some (.value t) := by
  unfold portType at hp
  cases hop : h.ops n <;> rw [hop] at hp <;> simp only [Op.dataflowSignature] at hp
  case tag k variants =>
    split at hp
    · rename_i sig he
      split at he
      · rename_i row hrow
        cases he
        cases dir
        · simp only [] at hp
          simp only [Op.ports, hrow]
          exact values_at hp
        · exact values_at (ts := [sumOf variants]) (rest := [.stateOrder]) hp
      · cases he
    · cases hp
  all_goals first
    | cases hp
    | (cases dir <;> simp only [] at hp <;> first | (simp at hp; done) | exact values_at hp)

theorem inner_body {op : Ops.Op} {sig : Types.Signature} (hi : op.innerSignature = some sig) :
    body op = some (sig.input, sig.output) := by
  cases op <;> simp only [Op.innerSignature, Option.some.injEq] at hi <;> first | cases hi | skip
  all_goals rfl

theorem HasBody.children (hb : HasBody r i o) (htr : IsTree r) (hvr : Valid C' r) :
    ∃ ti t2 rest, body (r.ops r.entrypoint) = some (ti, t2) ∧ r.children r.entrypoint = i :: o :: rest ∧
      r.ops i = .input ti ∧ r.ops o = .output t2 ∧ r.children i = [] ∧ r.children o = [] ∧
      r.live i = true ∧ r.live o = true := by
  have hc := hvr.children _ htr.entry_live
  have hbody := hb.region
  have hio := hb.io
  obtain ⟨ti, t2, hbo⟩ : ∃ ti t2, body (r.ops r.entrypoint) = some (ti, t2) := by
    cases he : body (r.ops r.entrypoint) with
    | none => rw [he] at hbody; cases hbody
    | some x => exact ⟨x.1, x.2, rfl⟩
  obtain ⟨inp, out, rest, h1, h2, h3, h4⟩ : ∃ inp out rest, r.children r.entrypoint = inp :: out :: rest ∧
      r.ops inp = .input ti ∧ r.ops out = .output t2 ∧ ∀ c ∈ rest, ¬ IsIO (r.ops c) := by
    unfold ChildrenOk at hc
    cases hop : r.ops r.entrypoint <;> rw [hop] at hc hbo <;> simp only [body, reduceCtorEq] at hbo <;>
      simp only [body] at hc <;> cases hbo <;> exact hc
  rw [h1] at hio
  simp only [List.take_succ_cons, List.take_zero, List.cons.injEq, and_true] at hio
  obtain ⟨rfl, rfl⟩ := hio
  have hli : r.live inp = true := (htr.parent_live _ _ ((htr.child_iff _ _).1 (by
    change inp ∈ r.children r.entrypoint; rw [h1]; simp))).1
  have hlo : r.live out = true := (htr.parent_live _ _ ((htr.child_iff _ _).1 (by
    change out ∈ r.children r.entrypoint; rw [h1]; simp))).1
  refine ⟨ti, t2, rest, hbo, h1, h2, h3, ?_, ?_, hli, hlo⟩
  · have := hvr.children _ hli
    unfold ChildrenOk at this
    rw [h2] at this
    exact this
  · have := hvr.children _ hlo
    unfold ChildrenOk at this
    rw [h3] at this
    exact this

theorem one_link {n port : Nat} {t : Types.Ty} (hv : Valid C h) (hn : h.live n = true)
    (hp : ((h.ops n).ports .incoming)[port]? = some (.value t)) :
    ∃ a ap, singleLinkedOutput h n port = some (a, ap) ∧
      ∀ a' ap', ⟨a', ap', n, port⟩ ∈ h.links ↔ a' = a ∧ ap' = ap :=
  singleLinked_of_count ((count_linksTo n port).trans (hv.inDegree n port _ hn hp))

theorem tryNew_ok (hn : tryNew s h r = .ok) : ∃ sig, s.signature h = some sig ∧
    body (r.ops r.entrypoint) = some (sig.input, sig.output) := by
  unfold tryNew at hn
  cases h1 : s.signature h with
  | none => rw [h1] at hn; cases hn
  | some sig =>
    rw [h1] at hn
    simp only [] at hn
    cases h2 : (r.ops r.entrypoint).innerSignature with
    | none => rw [h2] at hn; cases hn
    | some sig' =>
      rw [h2] at hn
      simp only [] at hn
      by_cases he : sig = sig'
      · subst he; exact ⟨sig, rfl, inner_body h2⟩
      · rw [if_neg he] at hn; cases hn

theorem signature_parts {sig : Types.Signature} (hs : s.signature h = some sig) :
    (s.inputs.length = sig.input.length ∧ ∀ (k : Nat) (part : List (Nat × Nat)), s.inputs[k]? = some part → partType h part = sig.input[k]?) ∧
    s.outputs.length = sig.output.length ∧
      ∀ (j : Nat) (np : Nat × Nat), s.outputs[j]? = some np → portType h np.1 .outgoing np.2 = sig.output[j]? := by
  unfold Subgraph.signature at hs
  split at hs
  · rename_i ins outs h1 h2
    cases hs
    exact ⟨collect_singles h1, collect_singles h2⟩
  · cases hs

theorem fresh_of {x : Nat} (hx : Inside r r.entrypoint x) (h1 : x ≠ i) (h2 : x ≠ o) : Fresh r i o x := ⟨hx, h1, h2⟩

theorem wired_of (ht : IsTree h) (hv : Valid C h) (htr : IsTree r) (hvr : Valid C' r) (hm : Removable h p s)
    (hb : HasBody r i o) (hn : tryNew s h r = .ok) : Wired h r s i o := by
  obtain ⟨sig, hs, hbody⟩ := tryNew_ok hn
  obtain ⟨⟨hi1, hi2⟩, ho1, ho2⟩ := signature_parts hs
  obtain ⟨ti, t2, rest, hbo, hch, hi, ho, hci, hco, hli, hlo⟩ := hb.children htr hvr
  rw [hbody] at hbo
  cases hbo
  have hpi : r.hier.parent i = some r.entrypoint := (htr.child_iff _ _).1 (by
    change i ∈ r.children r.entrypoint; rw [hch]; simp)
  have hpo : r.hier.parent o = some r.entrypoint := (htr.child_iff _ _).1 (by
    change o ∈ r.children r.entrypoint; rw [hch]; simp)
  have hiport : (r.ops i).ports .outgoing = sig.input.map .value ++ [.stateOrder] := by rw [hi]; rfl
  have hoport : (r.ops o).ports .incoming = sig.output.map .value ++ [.stateOrder] := by rw [ho]; rfl
  have hlen : ∀ {ts : List Types.Ty} {k : Nat} {t : Types.Ty},
      (ts.map Kind.value ++ [Kind.stateOrder])[k]? = some (.value t) → k < ts.length := by
    intro ts k t hk
    by_contra hlt
    rw [List.getElem?_append_right (by simpa using hlt)] at hk
    simp only [List.length_map] at hk
    cases hq : k - ts.length with
    | zero => rw [hq] at hk; simp at hk
    | succ q => rw [hq] at hk; simp at hk
  refine ⟨?_, ?_, ?_, ?_, ?_⟩
  · intro part hpart
    obtain ⟨k, hk⟩ := List.mem_iff_getElem?.1 hpart
    have hlt := (List.getElem?_eq_some_iff.1 hk).1
    have hty := hi2 k part hk
    rw [List.getElem?_eq_getElem (by omega)] at hty
    cases part with
    | nil => cases hty
    | cons np rest =>
      obtain ⟨n, np⟩ := np
      obtain ⟨a, ap, h1, h2⟩ := one_link hv (ht.parent_live _ _ (hm.parent n (hm.inputs _ hpart (n, np) (by simp)))).1
        (portType_ports (dir := .incoming) hty)
      exact ⟨n, np, rest, a, ap, rfl, h1, h2⟩
  · intro j hj
    have hport : ((r.ops o).ports .incoming)[j]? = some (.value (sig.output[j]'(by omega))) := by
      rw [hoport]
      exact values_at (List.getElem?_eq_getElem (by omega))
    obtain ⟨x, xp, h1, h2⟩ := one_link hvr hlo hport
    refine ⟨x, xp, h1, h2, ?_⟩
    rintro rfl
    obtain ⟨kind, k1, k2, _⟩ := hvr.kinds _ ((h2 x xp).2 ⟨rfl, rfl⟩)
    simp only [srcKind] at k1 k2
    rw [hport] at k2
    cases k2
    rw [hiport] at k1
    have := hlen k1
    omega
  · intro k j hk hl
    obtain ⟨kind, k1, k2, _⟩ := hvr.kinds _ hl
    simp only [srcKind] at k1 k2
    rw [hiport, values_at (List.getElem?_eq_getElem (by omega : k < sig.input.length))] at k1
    cases k1
    rw [hoport] at k2
    have := hlen k2
    omega
  · intro k x xp hl hxo
    have hx := (hb.closed _ hl).1 (.child hpi)
    refine ⟨hx, ?_, hxo⟩
    rintro rfl
    obtain ⟨kind, _, k2, _⟩ := hvr.kinds _ hl
    simp only at k2
    rw [hi] at k2
    simp [Op.ports] at k2
  · intro x xp j hl hxi
    have hx := (hb.closed _ hl).2 (.child hpo)
    refine ⟨hx, hxi, ?_⟩
    rintro rfl
    obtain ⟨kind, k1, _, _⟩ := hvr.kinds _ hl
    simp only [srcKind] at k1
    rw [ho] at k1
    simp [Op.ports] at k1

theorem entry_kept (ht : IsTree h) (hv : Valid C h) (hm : Removable h p s) : h.entrypoint ∉ s.nodes := by
  intro he
  have hl := hm.leaf _ he
  have hc := hv.children _ ht.entry_live
  have hent := hv.entrypoint
  have hpar := hv.contains _ _ (hm.parent _ he)
  have hreg := hm.region
  unfold ChildrenOk at hc
  cases hop : h.ops h.entrypoint <;> rw [hop] at hc hent hpar <;>
    simp only [Container, body, Option.isSome_none, Bool.false_eq_true] at hent hc
  case module =>
    cases hpp : h.ops p <;> rw [hpp] at hpar hreg <;> simp [MayContain, body, DataflowChild] at hpar hreg
  case conditional rows other outs =>
    rw [hl] at hc
    cases rows with
    | nil => exact hc.1 rfl
    | cons a b => simp at hc
  all_goals
    obtain ⟨a, b, c, hh⟩ := hc
    first
    | (rw [hl] at hh; cases hh.1)
    | (obtain ⟨_, _, hh, _⟩ := hh; rw [hl] at hh; cases hh)

/-- **C58** If `try_new` accepts a subgraph and a replacement, applying the `SimpleReplacement` succeeds
and puts the replacement in the place of the subgraph: the nodes of the subgraph are gone; the nodes of
the replacement, without its entrypoint, input and output, are in its region; what fed the inputs feeds
them; what used the outputs uses what the replacement gives, or directly what fed the inputs if the
replacement hands it through; everything else is as it was. -/
theorem C58_replace (ht : IsTree h) (hv : Valid C h) (htr : IsTree r) (hvr : Valid C' r)
    (hm : Removable h p s) (hb : HasBody r i o) (hn : tryNew s h r = .ok) {news : List Nat}
    (hlen : news.length = (r.descendants r.entrypoint).length) (hall : Allocated h news) :
    ∃ g map f, simpleReplace s h r news = .ok g map ∧
      (∀ x, Fresh r i o x → map.lookup x = some (f x)) ∧
      (∀ x, x = i ∨ x = o ∨ x = r.entrypoint → map.lookup x = none) ∧
      Replaced h r p i o s f g ∧ IsTree g := by
  obtain ⟨ti, t2, rest, hbo, hch, hi, ho, hci, hco, hli, hlo⟩ := hb.children htr hvr
  obtain ⟨g, map, f, h1, h2, h3, h4, h5, _⟩ := replace_eq ht (valid_linksOk ht hv) htr (valid_linksOk htr hvr) hm
    (entry_kept ht hv hm) hb.region (wired_of ht hv htr hvr hm hb hn) hch hci hco hlen hall
  exact ⟨g, map, f, h1, h2, h3, h4, h5⟩

/-- **C58** `try_new` accepts a replacement exactly if its entrypoint is a dataflow region of the signature
of the subgraph. -/
theorem C58_try_new {sig : Types.Signature} (hs : s.signature h = some sig) :
    tryNew s h r = .ok ↔ body (r.ops r.entrypoint) = some (sig.input, sig.output) := by
  constructor
  · intro hn
    obtain ⟨sig', h1, h2⟩ := tryNew_ok hn
    rw [hs] at h1
    cases h1
    exact h2
  · intro hb
    unfold tryNew
    rw [hs]
    cases hop : r.ops r.entrypoint <;> rw [hop] at hb <;> simp only [body, reduceCtorEq, Option.some.injEq,
      Prod.mk.injEq] at hb
    all_goals
      obtain ⟨h1, h2⟩ := hb
      simp only [Op.innerSignature]
      exact if_pos (by rw [Types.Signature.mk.injEq]; exact ⟨h1.symm, h2.symm⟩)

/-- **C58** The rewrite is refused, and nothing done, exactly if the parent of the first node of the
subgraph is no dataflow region, or if a node of the subgraph has another parent or has children. -/
theorem C58_refused (ht : IsTree h) {a p : Nat} {rest : List Nat} (hs : s.nodes = a :: rest)
    (hp : h.hier.parent a = some p) (news : List Nat) :
    (simpleReplace s h r news = .invalidParentNode ↔ body (h.ops p) = none) ∧
    (simpleReplace s h r news = .invalidRemovedNode ↔ (body (h.ops p)).isSome = true ∧
      ∃ n ∈ s.nodes, h.hier.parent n ≠ some p ∨ h.children n ≠ []) := by
  have hgp : ∀ n, h.getParent n = some p ↔ h.hier.parent n = some p := by
    intro n
    unfold Hugr.getParent
    constructor
    · intro hn
      split at hn
      · exact hn
      · cases hn
    · intro hn
      have h1 := (ht.parent_live _ _ hn).1
      have h2 : n ≠ h.moduleRoot := by
        rintro rfl
        rw [ht.root_top] at hn; cases hn
      rw [if_pos (by simp [h1, h2])]
      exact hn
  have hg : s.getParent h = some p := by
    unfold Subgraph.getParent
    rw [hs]
    exact (hgp a).2 hp
  unfold simpleReplace isValidRewrite
  rw [hg]
  simp only []
  by_cases hb : (body (h.ops p)).isSome = true
  · rw [if_pos (region_body.2 hb)]
    have hb' : body (h.ops p) ≠ none := by
      intro e; rw [e] at hb; cases hb
    by_cases hall : (s.nodes.all fun n => decide (h.getParent n = some p) && (h.children n).isEmpty) = true
    · rw [if_pos hall]
      simp only []
      have hno : ¬ ∃ n ∈ s.nodes, h.hier.parent n ≠ some p ∨ h.children n ≠ [] := by
        rintro ⟨n, hn, hor⟩
        have := List.all_eq_true.1 hall n hn
        simp only [Bool.and_eq_true, decide_eq_true_eq, List.isEmpty_iff, hgp] at this
        rcases hor with h1 | h1
        · exact h1 this.1
        · exact h1 this.2
      cases hr : replaceApply s h r p news with
      | none => simp [hb', hno]
      | some x => simp [hb', hno]
    · rw [if_neg hall]
      simp only [reduceCtorEq, false_iff, hb', not_false_eq_true, true_iff, true_and, hb]
      by_contra hno
      refine hall (List.all_eq_true.2 fun n hn => ?_)
      simp only [Bool.and_eq_true, decide_eq_true_eq, List.isEmpty_iff, hgp]
      refine ⟨?_, ?_⟩
      · by_contra hx; exact hno ⟨n, hn, .inl hx⟩
      · by_contra hx; exact hno ⟨n, hn, .inr hx⟩
  · rw [if_neg (fun e => hb (region_body.1 e))]
    have hb' : body (h.ops p) = none := by
      cases e : body (h.ops p) with
      | none => rfl
      | some _ => rw [e] at hb; exact absurd rfl hb
    simp [hb']

/-! ## Examples -/

/-- `main` (1) calls `f` (4) and gives the results to `f` again (5). -/
def twiceHistory : List (Cmd Ops.Op String) :=
  [ .addNodeWithParent 1 0 (.funcDefn "main" ⟨[], bool2⟩),
    .addNodeWithParent 2 1 (.input [bool, bool]), .addNodeWithParent 3 1 (.output [bool, bool]),
    .addNodeWithParent 4 1 (.call ⟨[], bool2⟩ [] bool2), .addNodeWithParent 5 1 (.call ⟨[], bool2⟩ [] bool2),
    .addNodeWithParent 6 0 (.funcDecl "f" ⟨[], bool2⟩),
    .connect ⟨2, 0, 4, 0⟩, .connect ⟨2, 1, 4, 1⟩, .connect ⟨6, 0, 4, 2⟩,
    .connect ⟨4, 0, 5, 1⟩, .connect ⟨4, 1, 5, 0⟩, .connect ⟨6, 0, 5, 2⟩,
    .connect ⟨5, 0, 3, 0⟩, .connect ⟨5, 1, 3, 1⟩ ]

/-- The two calls. -/
def twiceCalls : Subgraph :=
  { nodes := [4, 5], inputs := [[(4, 0)], [(4, 1)]], outputs := [(5, 0), (5, 1)], functionCalls := [[(4, 2), (5, 2)]] }

/-- The DFG node 4, the entrypoint, hands the second input through and gives false for the first. -/
def handHistory : List (Cmd Ops.Op String) :=
  [ .addNodeWithParent 1 0 (.funcDefn "main" ⟨[], bool2⟩),
    .addNodeWithParent 2 1 (.input [bool, bool]), .addNodeWithParent 3 1 (.output [bool, bool]),
    .addNodeWithParent 4 1 (.dfg bool2), .addNodeWithParent 5 4 (.input [bool, bool]),
    .addNodeWithParent 6 4 (.output [bool, bool]), .addNodeWithParent 7 4 (.dfg bool1),
    .addNodeWithParent 8 7 (.input [bool]), .addNodeWithParent 9 7 (.output [bool]),
    .addNodeWithParent 10 7 (.tag 0 [[], []]),
    .connect ⟨2, 0, 4, 0⟩, .connect ⟨2, 1, 4, 1⟩, .connect ⟨4, 0, 3, 0⟩, .connect ⟨4, 1, 3, 1⟩,
    .connect ⟨5, 0, 7, 0⟩, .connect ⟨7, 0, 6, 1⟩, .connect ⟨5, 1, 6, 0⟩, .connect ⟨10, 0, 9, 0⟩,
    .setEntrypoint 4 ]

theorem twice_valid : IsTree (built twiceHistory) ∧ Valid anaContext (built twiceHistory) := by
  obtain ⟨h1, h2⟩ := built_ok twiceHistory (by decide +kernel) (by decide +kernel)
  exact ⟨h1, (C47_validate_iff_partial _ _ h1 h2).1 (by decide +kernel)⟩

theorem hand_valid : IsTree (built handHistory) ∧ Valid anaContext (built handHistory) := by
  obtain ⟨h1, h2⟩ := built_ok handHistory (by decide +kernel) (by decide +kernel)
  exact ⟨h1, (C47_validate_iff_partial _ _ h1 h2).1 (by decide +kernel)⟩

theorem twice_removable : Removable (built twiceHistory) 1 twiceCalls :=
  ⟨rfl, by decide, by decide, by decide +kernel, by decide +kernel, by decide, by decide⟩

theorem inside_descendants {g : Hugr Ops.Op Meta} (ht : IsTree g) {e x : Nat} (he : g.live e = true) :
    Inside g e x ↔ x ∈ (g.descendants e).drop 1 := by
  have hen := descendants_enumerates ht he
  rw [inside_iff ht]
  have hd : g.descendants e = e :: (g.descendants e).drop 1 := by
    have := hen.head
    cases hds : g.descendants e with
    | nil => rw [hds] at this; cases this
    | cons a b => rw [hds] at this; cases this; rfl
  rw [← hen.mem x]
  have hnd := hen.nodup
  constructor
  · rintro ⟨h1, h2⟩
    rw [hd] at h1
    rcases List.mem_cons.1 h1 with rfl | h1
    · exact absurd rfl h2
    · exact h1
  · intro hx
    refine ⟨by rw [hd]; exact List.mem_cons_of_mem _ hx, ?_⟩
    rintro rfl
    rw [hd] at hnd
    exact (List.nodup_cons.1 hnd).1 hx

theorem hand_body : HasBody (built handHistory) 5 6 := by
  refine ⟨rfl, by decide +kernel, fun l hl => ?_⟩
  rw [inside_descendants hand_valid.1 hand_valid.1.entry_live, inside_descendants hand_valid.1 hand_valid.1.entry_live]
  revert l
  decide +kernel

def Replacing.links? : Replacing Meta → Option (List Link)
  | .ok g _ => some g.links
  | _ => none

def Replacing.children? (n : Nat) : Replacing Meta → Option (List Nat)
  | .ok g _ => some (g.children n)
  | _ => none

def Replacing.map? : Replacing Meta → Option (List (Nat × Nat))
  | .ok _ m => some m
  | _ => none

/-- The hypotheses of `C58_replace` are met, and this is the result: 5 of the replacement hands its second
port through, so that the input 2 of `main` is linked to the output 3. -/
example : (∃ g map f, simpleReplace twiceCalls (built twiceHistory) (built handHistory) [10, 11, 12, 13, 14, 15, 16] = .ok g map ∧
      (∀ x, Fresh (built handHistory) 5 6 x → map.lookup x = some (f x)) ∧
      (∀ x, x = 5 ∨ x = 6 ∨ x = (built handHistory).entrypoint → map.lookup x = none) ∧
      Replaced (built twiceHistory) (built handHistory) 1 5 6 twiceCalls f g ∧ IsTree g) ∧
    (simpleReplace twiceCalls (built twiceHistory) (built handHistory) [10, 11, 12, 13, 14, 15, 16]).children? 1 =
      some [2, 3, 13] ∧
    (simpleReplace twiceCalls (built twiceHistory) (built handHistory) [10, 11, 12, 13, 14, 15, 16]).map? =
      some [(10, 16), (9, 15), (8, 14), (7, 13)] ∧
    (simpleReplace twiceCalls (built twiceHistory) (built handHistory) [10, 11, 12, 13, 14, 15, 16]).links? =
      some [⟨16, 0, 15, 0⟩, ⟨2, 0, 13, 0⟩, ⟨13, 0, 3, 1⟩, ⟨2, 1, 3, 0⟩] :=
  ⟨C58_replace twice_valid.1 twice_valid.2 hand_valid.1 hand_valid.2 twice_removable hand_body (by decide +kernel)
    (by decide +kernel) ⟨by decide, by decide +kernel⟩, by decide +kernel⟩

/-- `C58_refused`: neither a node with children nor one of another region can be removed. -/
example : simpleReplace { twiceCalls with nodes := [4, 6] } (built twiceHistory) (built handHistory) [] = .invalidRemovedNode ∧
    simpleReplace { twiceCalls with nodes := [6, 4] } (built twiceHistory) (built handHistory) [] = .invalidParentNode :=
  ⟨rfl, rfl⟩

/-- The entrypoint 5 gives out the value of the node 4 outside of it. -/
def borrowHistory : List (Cmd Ops.Op String) :=
  [ .addNodeWithParent 1 0 (.funcDefn "main" ⟨[], bool2⟩),
    .addNodeWithParent 2 1 (.input [bool, bool]), .addNodeWithParent 3 1 (.output [bool, bool]),
    .addNodeWithParent 4 1 (.tag 0 [[], []]), .addNodeWithParent 5 1 (.dfg bool2),
    .addNodeWithParent 6 5 (.input [bool, bool]), .addNodeWithParent 7 5 (.output [bool, bool]),
    .connect ⟨2, 0, 5, 0⟩, .connect ⟨2, 1, 5, 1⟩, .connect ⟨5, 0, 3, 0⟩, .connect ⟨5, 1, 3, 1⟩,
    .connect ⟨6, 0, 7, 0⟩, .connect ⟨4, 0, 7, 1⟩, .connect ⟨4, 1, 5, 2⟩,
    .setEntrypoint 5 ]

/-- **C58, finding** The entrypoint of a replacement may have links from outside: `try_new` accepts it, but
only what is below the entrypoint is copied, and the rewrite panics on a link from outside to the
output, after it has changed the host. -/
theorem C58_outer_link_panics : IsTree (built borrowHistory) ∧ Valid anaContext (built borrowHistory) ∧
    tryNew twiceCalls (built twiceHistory) (built borrowHistory) = .ok ∧
    isValidRewrite twiceCalls (built twiceHistory) = .ok 1 ∧
    simpleReplace twiceCalls (built twiceHistory) (built borrowHistory) [10, 11, 12] = .panic := by
  obtain ⟨h1, h2⟩ := built_ok borrowHistory (by decide +kernel) (by decide +kernel)
  exact ⟨h1, (C47_validate_iff_partial _ _ h1 h2).1 (by decide +kernel), by decide +kernel, by decide +kernel, rfl⟩

end Verif.Patch
