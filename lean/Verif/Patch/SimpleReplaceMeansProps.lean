import Verif.Patch.SimpleReplaceBackward
import Verif.Patch.SimpleReplaceValidProps

/-!
# Property C59: replacing a subgraph by one that does the same keeps what functions return
-/
namespace Verif.Patch

open Verif.Graph Verif.Ops Verif.Passes Verif.Validate Verif.Dataflow

variable {Meta W E : Type} {C C' : Validate.Context} {h r : Hugr Ops.Op Meta} {s : Subgraph} {i o p : Nat}

/-! ## Removed nodes are forgotten -/

theorem forgets_each {α : Type} {I : OpInfo Ops.Op} {step : Hugr Ops.Op Meta → α → Option (Hugr Ops.Op Meta)}
    (hs : ∀ {h g : Hugr Ops.Op Meta} {a : α}, Forgets I h → step h a = some g → Forgets I g) :
    ∀ {xs : List α} {h g : Hugr Ops.Op Meta}, Forgets I h → each step h xs = some g → Forgets I g
  | [], h, g, hf, hg => by simp only [each] at hg; cases hg; exact hf
  | x :: xs, h, g, hf, hg => by
    simp only [each] at hg
    cases hx : step h x with
    | none => rw [hx] at hg; cases hg
    | some h1 =>
      rw [hx] at hg
      exact forgets_each hs (hs hf hx) hg

theorem forgets_unpack {parent : Nat} {news : List Nat} {g : Hugr Ops.Op Meta} {map : List (Nat × Nat)}
    (hf : Forgets opsInfo.toOpInfo h) (hg : unpackReplacement h r parent i o news = some (g, map)) :
    Forgets opsInfo.toOpInfo g := by
  unfold unpackReplacement at hg
  split at hg
  · rename_i h1 map1 hi
    have f1 := hf.insertRegion hi
    split at hg
    · split at hg
      · cases hg
      · rename_i h2 e2
        have f2 := f1.removeNode e2
        split at hg
        · cases hg
        · rename_i h3 e3
          have f3 := f2.removeNode e3
          split at hg
          · cases hg
          · rename_i h4 e4
            have f4 := forgets_each (fun hf hg => hf.setParent hg) f3 e4
            split at hg
            · cases hg
            · rename_i h5 e5
              cases hg
              exact f4.removeNode e5
    · cases hg
  · cases hg

theorem forgets_replace {news : List Nat} {g : Hugr Ops.Op Meta} {map : List (Nat × Nat)}
    (hf : Forgets opsInfo.toOpInfo h) (hg : simpleReplace s h r news = .ok g map) : Forgets opsInfo.toOpInfo g := by
  unfold simpleReplace at hg
  split at hg
  · cases hg
  · cases hg
  · cases hg
  · split at hg
    · cases hg
    · rename_i parent _ x g1 map1 hr
      cases hg
      unfold replaceApply at hr
      split at hr
      · cases hr
      · split at hr
        · cases hr
        · split at hr
          · cases hr
          · rename_i e1
            have f1 := forgets_unpack hf e1
            split at hr
            · cases hr
            · rename_i e2
              have f2 := forgets_each (fun {h g a} hf hg => by
                unfold connectBoundary at hg
                split at hg
                · exact hf.connect hg
                · cases hg) f1 e2
              split at hr
              · cases hr
              · rename_i e3
                cases hr
                exact forgets_each (fun hf hg => hf.removeNode hg) f2 e3

/-- Whatever is built from nothing forgets removed nodes. -/
theorem forgets_built (cmds : List (Cmd Ops.Op String)) : Forgets opsInfo.toOpInfo (built cmds) := by
  unfold built
  cases hr : run opsInfo.toOpInfo (Hugr.new opsInfo.toOpInfo .module) cmds with
  | none => exact Forgets.new _
  | some g => exact Forgets.run (Forgets.new _) hr

/-! ## Theorems -/

/-- **C59** If the replacement can do whatever the subgraph can do, then after the rewrite each function can
return whatever it could return before. -/
theorem C59_replace_allows (ht : IsTree h) (hv : Valid C h) (hf : Forgets opsInfo.toOpInfo h) (htr : IsTree r)
    (hvr : Valid C' r) (hm : Removable h p s) (hs : Separable h p s) (hb : HasBody r i o) (hn : tryNew s h r = .ok)
    (hu : Unordered r i o) {news : List Nat} (hlen : news.length = (r.descendants r.entrypoint).length)
    (hall : Allocated h news) :
    ∃ g map, ∃ f : Nat → Nat, simpleReplace s h r news = .ok g map ∧ (∀ x, Fresh r i o x → map.lookup x = some (f x)) ∧
      ∀ (S Sr S' : Sem W E), Merges h r s i o f S Sr S' → Allows h S s r Sr →
        ∀ k args outs, Returns h S k args outs → Returns g S' k args outs := by
  obtain ⟨ti, t2, rest, hbo, hch, hi, ho, hci, hco, hli, hlo⟩ := hb.children htr hvr
  obtain ⟨g, map, f, h1, h2, h3, h4, h5, h6⟩ := replace_eq ht (valid_linksOk ht hv) htr (valid_linksOk htr hvr) hm
    (entry_kept ht hv hm) hb.region (wired_of ht hv htr hvr hm hb hn) hch hci hco hlen hall
  have z : SwapAt C C' h r g p i o s f := ⟨ht, hv, htr, hvr, hm, hb, hn, h5, h4, hs, hu⟩
  exact ⟨g, map, f, h1, h2, fun S Sr S' hS hA k args outs hr =>
    z.returns_of hS (z.isDefn_iff hf (forgets_replace hf h1)) hA hr⟩

/-- **C59** If the replacement does only what the subgraph can do, then after the rewrite each function
returns only what it could return before. -/
theorem C59_replace_respects (ht : IsTree h) (hv : Valid C h) (hf : Forgets opsInfo.toOpInfo h) (htr : IsTree r)
    (hvr : Valid C' r) (hm : Removable h p s) (hs : Separable h p s) (hb : HasBody r i o) (hn : tryNew s h r = .ok)
    (hu : Unordered r i o) {news : List Nat} (hlen : news.length = (r.descendants r.entrypoint).length)
    (hall : Allocated h news) :
    ∃ g map, ∃ f : Nat → Nat, simpleReplace s h r news = .ok g map ∧ (∀ x, Fresh r i o x → map.lookup x = some (f x)) ∧
      ∀ (S Sr S' : Sem W E), Merges h r s i o f S Sr S' → Respects h S s r Sr →
        ∀ k args outs, Returns g S' k args outs → Returns h S k args outs := by
  obtain ⟨ti, t2, rest, hbo, hch, hi, ho, hci, hco, hli, hlo⟩ := hb.children htr hvr
  obtain ⟨g, map, f, h1, h2, h3, h4, h5, h6⟩ := replace_eq ht (valid_linksOk ht hv) htr (valid_linksOk htr hvr) hm
    (entry_kept ht hv hm) hb.region (wired_of ht hv htr hvr hm hb hn) hch hci hco hlen hall
  have z : SwapAt C C' h r g p i o s f := ⟨ht, hv, htr, hvr, hm, hb, hn, h5, h4, hs, hu⟩
  refine ⟨g, map, f, h1, h2, fun S Sr S' hS hA k args outs hr =>
    z.returns_back hS (z.isDefn_iff hf (forgets_replace hf h1)) (fun k hk => ?_) hA hr⟩
  obtain ⟨nm, sg, e⟩ := hk
  cases hl : h.live k with
  | true => rfl
  | false => have := hf k hl; rw [e] at this; cases this

/-- **C59** If the replacement does the same as the subgraph, then after the rewrite each function returns the
same as before. The meaning that the rewritten Hugr needs for this exists. -/
theorem C59_replace_results (ht : IsTree h) (hv : Valid C h) (hf : Forgets opsInfo.toOpInfo h) (htr : IsTree r)
    (hvr : Valid C' r) (hm : Removable h p s) (hs : Separable h p s) (hb : HasBody r i o) (hn : tryNew s h r = .ok)
    (hu : Unordered r i o) {news : List Nat} (hlen : news.length = (r.descendants r.entrypoint).length)
    (hall : Allocated h news) :
    ∃ g map, ∃ f : Nat → Nat, simpleReplace s h r news = .ok g map ∧ (∀ x, Fresh r i o x → map.lookup x = some (f x)) ∧
      ∀ (S Sr : Sem W E), S.leaf = Sr.leaf → S.unknown = Sr.unknown →
        (∀ R ins outs, SubMeans h S s R ins outs ↔ BodyMeans r Sr R ins outs) →
        (∃ S', Merges h r s i o f S Sr S') ∧
        ∀ S', Merges h r s i o f S Sr S' → ∀ k args outs, Returns g S' k args outs ↔ Returns h S k args outs := by
  obtain ⟨g, map, f, h1, h2, h3⟩ := C59_replace_allows (W := W) (E := E) ht hv hf htr hvr hm hs hb hn hu hlen hall
  obtain ⟨g', map', f', h1', h2', h3'⟩ := C59_replace_respects (W := W) (E := E) ht hv hf htr hvr hm hs hb hn hu hlen hall
  obtain ⟨g2, map2, f2, q1, q2, _, q4, _⟩ := C58_replace ht hv htr hvr hm hb hn hlen hall
  rw [h1] at h1' q1; cases h1'; cases q1
  have hff : ∀ x, Fresh r i o x → f' x = f x := fun x hx => Option.some.inj ((h2' x hx).symm.trans (h2 x hx))
  have hff2 : ∀ x, Fresh r i o x → f2 x = f x := fun x hx => Option.some.inj ((q2 x hx).symm.trans (h2 x hx))
  refine ⟨g, map, f, h1, h2, fun S Sr hl hk hsame => ⟨?_, fun S' hS k args outs => ⟨?_, ?_⟩⟩⟩
  · classical
    refine ⟨{ S with
      ext := fun n => if hn : ∃ x, Fresh r i o x ∧ n = f x then Sr.ext hn.choose else S.ext n
      const := fun n => if hn : ∃ x, Fresh r i o x ∧ n = f x then Sr.const hn.choose else S.const n }, ?_⟩
    have hold : ∀ n, h.live n = true → ¬ ∃ x, Fresh r i o x ∧ n = f x := by
      rintro n hn ⟨x, hx, rfl⟩
      have := q4.fresh x hx
      rw [hff2 x hx, hn] at this; cases this
    have hnew : ∀ x (hn : ∃ y, Fresh r i o y ∧ f x = f y), Fresh r i o x → hn.choose = x := by
      intro x hn hx
      refine (q4.injective _ _ hx hn.choose_spec.1 ?_).symm
      rw [hff2 _ hx, hff2 _ hn.choose_spec.1]; exact hn.choose_spec.2
    refine ⟨fun n hn _ => dif_neg (hold n hn), fun n hn _ => dif_neg (hold n hn), fun x hx => ?_, fun x hx => ?_, rfl, hl, rfl,
      rfl, hk⟩
    · have hn : ∃ y, Fresh r i o y ∧ f x = f y := ⟨x, hx, rfl⟩
      simp only []
      rw [dif_pos hn, hnew x hn hx]
    · have hn : ∃ y, Fresh r i o y ∧ f x = f y := ⟨x, hx, rfl⟩
      simp only []
      rw [dif_pos hn, hnew x hn hx]
  · refine h3' S Sr S' ⟨hS.ext_old, hS.const_old, fun x hx => ?_, fun x hx => ?_, hS.leaf, hS.leaf_new, hS.external, hS.unknown,
      hS.unknown_new⟩ (fun R ins outs hb => (hsame R ins outs).2 hb) k args outs
    · rw [hff x hx]; exact hS.ext_new x hx
    · rw [hff x hx]; exact hS.const_new x hx
  · exact h3 S Sr S' hS (fun R ins outs hb => (hsame R ins outs).1 hb) k args outs

/-! ## Examples -/

/-- The type of pairs. -/
def pairTy : Types.Ty := .sumGen [[.ty bool, .ty bool]] .copyable

/-- `main` (1) makes a pair of its inputs (4). -/
def pairHistory : List (Cmd Ops.Op String) :=
  [ .addNodeWithParent 1 0 (.funcDefn "main" ⟨[], ⟨[bool, bool], [pairTy]⟩⟩),
    .addNodeWithParent 2 1 (.input [bool, bool]), .addNodeWithParent 3 1 (.output [pairTy]),
    .addNodeWithParent 4 1 (.tag 0 [[bool, bool]]),
    .connect ⟨2, 1, 4, 0⟩, .connect ⟨2, 0, 4, 1⟩, .connect ⟨4, 0, 3, 0⟩ ]

/-- The node that makes it. -/
def pairTag : Subgraph := { nodes := [4], inputs := [[(4, 0)], [(4, 1)]], outputs := [(4, 0)], functionCalls := [] }

/-- The DFG node 4, the entrypoint, has a DFG node 7 that makes a pair. -/
def pairNestedHistory : List (Cmd Ops.Op String) :=
  [ .addNodeWithParent 1 0 (.funcDefn "main" ⟨[], ⟨[bool, bool], [pairTy]⟩⟩),
    .addNodeWithParent 2 1 (.input [bool, bool]), .addNodeWithParent 3 1 (.output [pairTy]),
    .addNodeWithParent 4 1 (.dfg ⟨[bool, bool], [pairTy]⟩), .addNodeWithParent 5 4 (.input [bool, bool]),
    .addNodeWithParent 6 4 (.output [pairTy]), .addNodeWithParent 7 4 (.dfg ⟨[bool, bool], [pairTy]⟩),
    .addNodeWithParent 8 7 (.input [bool, bool]), .addNodeWithParent 9 7 (.output [pairTy]),
    .addNodeWithParent 10 7 (.tag 0 [[bool, bool]]),
    .connect ⟨2, 0, 4, 0⟩, .connect ⟨2, 1, 4, 1⟩, .connect ⟨4, 0, 3, 0⟩,
    .connect ⟨5, 0, 7, 0⟩, .connect ⟨5, 1, 7, 1⟩, .connect ⟨7, 0, 6, 0⟩,
    .connect ⟨8, 0, 10, 0⟩, .connect ⟨8, 1, 10, 1⟩, .connect ⟨10, 0, 9, 0⟩,
    .setEntrypoint 4 ]

theorem pair_valid : IsTree (built pairHistory) ∧ Valid anaContext (built pairHistory) := by
  obtain ⟨h1, h2⟩ := built_ok pairHistory (by decide +kernel) (by decide +kernel)
  exact ⟨h1, (C47_validate_iff_partial _ _ h1 h2).1 (by decide +kernel)⟩

theorem pairNested_valid : IsTree (built pairNestedHistory) ∧ Valid anaContext (built pairNestedHistory) := by
  obtain ⟨h1, h2⟩ := built_ok pairNestedHistory (by decide +kernel) (by decide +kernel)
  exact ⟨h1, (C47_validate_iff_partial _ _ h1 h2).1 (by decide +kernel)⟩

theorem pair_removable : Removable (built pairHistory) 1 pairTag :=
  ⟨rfl, by decide, by decide, by decide +kernel, by decide +kernel, by decide, by decide⟩

theorem pair_separable : Separable (built pairHistory) 1 pairTag where
  noIO n hn := by
    have hn : n = 4 := by simpa [pairTag] using hn
    subst hn
    rintro (⟨_, e⟩ | ⟨_, e⟩) <;> cases e
  convex a b c ha hb hc h1 h2 := by
    have hb' : b ∈ [4, 3] := region_closed (by decide +kernel) (by clear h1; revert a; decide) h1
    have h3 : b = 3 := by
      revert hb' hb; clear h1 h2; simp [pairTag]; omega
    subst h3
    have : c ∈ [3] := region_closed (by decide +kernel) (by decide) h2
    clear h1 h2; revert c; decide
  inputs_nodup := by decide
  outputs_nodup := by decide
  enters l hl h1 h2 t ht := by
    clear ht
    revert l
    decide +kernel
  outside := by decide +kernel
  shared := by decide +kernel
  leaves := by decide +kernel
  linear l hl ho _ ht _ := by
    clear ht
    revert l
    decide +kernel

theorem pairNested_body : HasBody (built pairNestedHistory) 5 6 := by
  refine ⟨rfl, by decide +kernel, fun l hl => ?_⟩
  rw [inside_descendants pairNested_valid.1 pairNested_valid.1.entry_live, inside_descendants pairNested_valid.1 pairNested_valid.1.entry_live]
  revert l
  decide +kernel

theorem pairNested_unordered : Unordered (built pairNestedHistory) 5 6 := by
  unfold Unordered
  decide +kernel

/-- What a tag does. -/
theorem runs_tag {h : Hugr Ops.Op Meta} {S : Sem W E} {ρ : Wires W} {n t : Nat} {rows : List (List Types.Ty)} {ins outs : List (Val W)}
    (hop : h.ops n = .tag t rows) : Runs h S (.node ρ n ins outs) ↔ outs = [.sum t ins] := by
  constructor
  · intro hr
    cases hr with
    | leaf hl =>
      cases hl with
      | tag h1 => rw [hop] at h1; cases h1; rfl
      | external hc => cases hc with
        | direct h1 => rw [hop] at h1; cases h1
        | indirect h1 => rw [hop] at h1; cases h1
      | makeTuple h1 => rw [hop] at h1; cases h1
      | unpackTuple h1 => rw [hop] at h1; cases h1
      | loadConstant h1 => rw [hop] at h1; cases h1
      | loadFunction h1 => rw [hop] at h1; cases h1
      | ext h1 => rw [hop] at h1; cases h1
      | unknown h1 => rw [hop] at h1; cases h1
    | const h1 => rw [hop] at h1; cases h1
    | dfg h1 => rw [hop] at h1; cases h1
    | cond h1 => rw [hop] at h1; cases h1
    | tailLoop h1 => rw [hop] at h1; cases h1
    | cfg h1 => rw [hop] at h1; cases h1
    | call hc => cases hc with
      | direct h1 => rw [hop] at h1; cases h1
      | indirect h1 => rw [hop] at h1; cases h1
  · rintro rfl
    exact .leaf (.tag hop)

/-- What a DFG node does. -/
theorem runs_dfg {h : Hugr Ops.Op Meta} {S : Sem W E} {ρ : Wires W} {n : Nat} {sg : Types.Signature} {ins outs : List (Val W)}
    (hop : h.ops n = .dfg sg) : Runs h S (.node ρ n ins outs) ↔ ∃ σ, Runs h S (.graph ρ n ins outs σ) := by
  constructor
  · intro hr
    cases hr with
    | leaf hl =>
      cases hl with
      | tag h1 => rw [hop] at h1; cases h1
      | external hc => cases hc with
        | direct h1 => rw [hop] at h1; cases h1
        | indirect h1 => rw [hop] at h1; cases h1
      | makeTuple h1 => rw [hop] at h1; cases h1
      | unpackTuple h1 => rw [hop] at h1; cases h1
      | loadConstant h1 => rw [hop] at h1; cases h1
      | loadFunction h1 => rw [hop] at h1; cases h1
      | ext h1 => rw [hop] at h1; cases h1
      | unknown h1 => rw [hop] at h1; cases h1
    | const h1 => rw [hop] at h1; cases h1
    | dfg h1 h2 => exact ⟨_, h2⟩
    | cond h1 => rw [hop] at h1; cases h1
    | tailLoop h1 => rw [hop] at h1; cases h1
    | cfg h1 => rw [hop] at h1; cases h1
    | call hc => cases hc with
      | direct h1 => rw [hop] at h1; cases h1
      | indirect h1 => rw [hop] at h1; cases h1
  · rintro ⟨σ, h2⟩
    exact .dfg hop h2

/-- A node that gets the two inputs of its region and gives its one output. -/
theorem runs_wrap {h : Hugr Ops.Op Meta} {S : Sem W E} {ρ : Wires W} {P i o n : Nat}
    (hch : h.children P = [i, o, n]) (hd : n ≠ i ∧ n ≠ o ∧ i ≠ o) (hi : numOuts (h.ops i) = 2) (hn1 : numIns (h.ops n) = 2)
    (hn2 : numOuts (h.ops n) = 1) (ho : numIns (h.ops o) = 1)
    (l0 : (⟨i, 0, n, 0⟩ : Link) ∈ h.links) (l1 : (⟨i, 1, n, 1⟩ : Link) ∈ h.links) (l2 : (⟨n, 0, o, 0⟩ : Link) ∈ h.links)
    (hu : ∀ l ∈ h.links, l.dst = n ∨ l.dst = o → l = ⟨i, 0, n, 0⟩ ∨ l = ⟨i, 1, n, 1⟩ ∨ l = ⟨n, 0, o, 0⟩)
    {ins outs : List (Val W)} :
    (∃ σ, Runs h S (.graph ρ P ins outs σ)) ↔ ins.length = 2 ∧ outs.length = 1 ∧
      ∃ σ : Wires W, (∀ m, m ∉ h.children P → σ m = ρ m) ∧ σ i = outWires ins ∧ σ n = outWires outs ∧ σ o = outWires [] ∧
        Runs h S (.node σ n ins outs) := by
  have hio : HasIO h P i o := ⟨[n], hch⟩
  have hinner : ∀ m, Inner h P i o m ↔ m = n := by
    intro m
    unfold Inner
    rw [hch]
    simp only [List.mem_cons, List.not_mem_nil, or_false]
    constructor
    · rintro ⟨e | e | e, h1, h2⟩
      · exact absurd e h1
      · exact absurd e h2
      · exact e
    · rintro rfl; exact ⟨.inr (.inr rfl), hd.1, hd.2.1⟩
  have hlist : ∀ {xs ys : List (Val W)}, xs.length = ys.length → (∀ (k : Nat) v, xs[k]? = some v → ys[k]? = some v) → xs = ys := by
    intro xs ys hl hk
    refine List.ext_getElem? fun k => ?_
    by_cases hlt : k < xs.length
    · rw [List.getElem?_eq_getElem hlt]; exact (hk k _ (List.getElem?_eq_getElem hlt)).symm
    · rw [List.getElem?_eq_none (by omega), List.getElem?_eq_none (by omega)]
  constructor
  · rintro ⟨σ, hr⟩
    cases hr with
    | @graph _ _ _ i' o' _ _ insf outsf q1 q2 q3 q4 q5 q6 q7 q8 q9 q10 =>
      obtain ⟨rfl, rfl⟩ := hasIO_fun q1 hio
      have hn := (hinner n).2 rfl
      have c1 := q6 n hn
      have e1 : insf n = ins := by
        refine hlist (by rw [c1.1, hn1, q4, hi]) fun k v hk => ?_
        obtain ⟨l, m1, m2, m3, m4⟩ := c1.2 k v hk
        rcases hu l m1 (.inl m2) with rfl | rfl | rfl
        · subst m3; rw [q3] at m4; exact m4
        · subst m3; rw [q3] at m4; exact m4
        · exact absurd m2.symm hd.2.1
      have e2 : outs = outsf n := by
        refine hlist (by rw [q10.1, ho, q8 n hn, hn2]) fun k v hk => ?_
        obtain ⟨l, m1, m2, m3, m4⟩ := q10.2 k v hk
        rcases hu l m1 (.inr m2) with rfl | rfl | rfl
        · exact absurd m2 hd.2.1
        · exact absurd m2 hd.2.1
        · subst m3; rw [q7 n hn] at m4; exact m4
      refine ⟨by rw [q4, hi], by rw [q10.1, ho], σ, q2, q3, ?_, q5, ?_⟩
      · rw [q7 n hn, e2]
      · have := q9 n hn
        rw [e1, ← e2] at this; exact this
  · rintro ⟨h1, h2, σ, q2, q3, q4, q5, q6⟩
    refine ⟨σ, .graph (ins := fun _ => ins) (outs := fun _ => outs) hio q2 q3 (by rw [h1, hi]) q5 ?_ ?_ ?_ ?_ ?_⟩
    · intro m hm
      rw [hinner] at hm; subst hm
      refine ⟨by rw [h1, hn1], fun k v hk => ?_⟩
      have hlt := (List.getElem?_eq_some_iff.1 hk).1
      rcases k with _ | _ | k
      · exact ⟨_, l0, rfl, rfl, by rw [q3]; exact hk⟩
      · exact ⟨_, l1, rfl, rfl, by rw [q3]; exact hk⟩
      · omega
    · intro m hm
      rw [hinner] at hm; subst hm; exact q4
    · intro m hm
      rw [hinner] at hm; subst hm; rw [h2, hn2]
    · intro m hm
      rw [hinner] at hm; subst hm; exact q6
    · refine ⟨by rw [h2, ho], fun k v hk => ?_⟩
      have hlt := (List.getElem?_eq_some_iff.1 hk).1
      rcases k with _ | k
      · exact ⟨_, l2, rfl, rfl, by rw [q4]; exact hk⟩
      · omega

theorem pair_means (S : Sem W E) (R : Answers W) (ins outs : List (Val W)) :
    SubMeans (built pairHistory) S pairTag R ins outs ↔ ins.length = 2 ∧ outs = [.sum 0 ins] := by
  have hop : (bodiless (built pairHistory)).ops 4 = .tag 0 [[bool, bool]] := rfl
  have hin : ∀ l ∈ (built pairHistory).links, l.src ∈ pairTag.nodes → l.dst ≠ 4 := by decide +kernel
  constructor
  · rintro ⟨h1, h2, σ, args, res, h3, h4⟩
    obtain ⟨a1, a2, a3, a4, a5⟩ := h3 4 (by decide)
    have e1 := (runs_tag hop).1 a5
    have e2 : args 4 = ins := by
      refine List.ext_getElem? fun k => ?_
      have l1 : (args 4).length = 2 := a1
      have l2 : ins.length = 2 := h1
      by_cases hk : k < 2
      · rcases a2 k _ (List.getElem?_eq_getElem (by omega)) with ⟨j, part, b1, b2, b3⟩ | ⟨l, b1, b2, b3, _⟩
        · rw [List.getElem?_eq_getElem (by omega), ← b3]
          have : j = k := by
            rcases j with _ | _ | j
            · cases b1; have := List.mem_singleton.1 b2; cases this; rfl
            · cases b1; have := List.mem_singleton.1 b2; cases this; rfl
            · cases b1
          rw [this]
        · exact absurd b3 (hin l b1 b2)
      · rw [List.getElem?_eq_none (by omega), List.getElem?_eq_none (by omega)]
    have e3 := h4 0 4 0 rfl
    rw [a3, e1, e2] at e3
    refine ⟨h1, ?_⟩
    rcases outs with _ | ⟨o, _ | ⟨_, _⟩⟩
    · cases h2
    · cases e3; rfl
    · cases h2
  · rintro ⟨h1, rfl⟩
    refine ⟨h1, rfl, fun n => if n = 4 then outWires [.sum 0 ins] else outWires [], fun _ => ins, fun _ => [.sum 0 ins], ?_, ?_⟩
    · intro n hn
      have hn : n = 4 := by simpa [pairTag] using hn
      subst hn
      refine ⟨h1, fun k v hk => .inl ?_, rfl, rfl, (runs_tag hop).2 rfl⟩
      have hlt : k < ins.length := (List.getElem?_eq_some_iff.1 hk).1
      have h1 : ins.length = 2 := h1
      rcases k with _ | _ | k
      · exact ⟨0, _, rfl, by decide, hk⟩
      · exact ⟨1, _, rfl, by decide, hk⟩
      · omega
    · intro j n np hj
      rcases j with _ | j
      · cases hj; rfl
      · cases hj

theorem pairNested_means (S : Sem W E) (R : Answers W) (ins outs : List (Val W)) :
    BodyMeans (built pairNestedHistory) S R ins outs ↔ ins.length = 2 ∧ outs = [.sum 0 ins] := by
  have hlinks : (bodiless (built pairNestedHistory)).links = (built pairNestedHistory).links := rfl
  have w4 : ∀ {ρ : Wires W}, (∃ σ, Runs (bodiless (built pairNestedHistory)) (answering S R) (.graph ρ 4 ins outs σ)) ↔ _ :=
    fun {ρ} => runs_wrap (P := 4) (i := 5) (o := 6) (n := 7) rfl (by decide) rfl rfl rfl rfl (by rw [hlinks]; decide +kernel)
      (by rw [hlinks]; decide +kernel) (by rw [hlinks]; decide +kernel) (by rw [hlinks]; decide +kernel)
  have w7 : ∀ {ρ : Wires W}, (∃ σ, Runs (bodiless (built pairNestedHistory)) (answering S R) (.graph ρ 7 ins outs σ)) ↔ _ :=
    fun {ρ} => runs_wrap (P := 7) (i := 8) (o := 9) (n := 10) rfl (by decide) rfl rfl rfl rfl (by rw [hlinks]; decide +kernel)
      (by rw [hlinks]; decide +kernel) (by rw [hlinks]; decide +kernel) (by rw [hlinks]; decide +kernel)
  have o7 : (bodiless (built pairNestedHistory)).ops 7 = .dfg ⟨[bool, bool], [pairTy]⟩ := rfl
  have o10 : (bodiless (built pairNestedHistory)).ops 10 = .tag 0 [[bool, bool]] := rfl
  refine w4.trans ⟨?_, ?_⟩
  · rintro ⟨h1, h2, σ, -, -, -, -, h3⟩
    obtain ⟨-, -, σ', -, -, -, -, h4⟩ := w7.1 ((runs_dfg o7).1 h3)
    exact ⟨h1, (runs_tag o10).1 h4⟩
  · rintro ⟨h1, rfl⟩
    refine ⟨h1, rfl, fun n => if n = 5 then outWires ins else if n = 7 then outWires [.sum 0 ins] else
      if n = 6 then outWires [] else noWires n, ?_, rfl, rfl, rfl, (runs_dfg o7).2 (w7.2 ⟨h1, rfl, fun n =>
        if n = 8 then outWires ins else if n = 10 then outWires [.sum 0 ins] else if n = 9 then outWires [] else
          if n = 5 then outWires ins else if n = 7 then outWires [.sum 0 ins] else
            if n = 6 then outWires [] else noWires n, ?_, rfl, rfl, rfl, (runs_tag o10).2 rfl⟩)⟩
    · intro m hm
      have hm : m ∉ [5, 6, 7] := hm
      simp only [List.mem_cons, List.not_mem_nil, or_false, not_or] at hm
      simp only [if_neg hm.1, if_neg hm.2.1, if_neg hm.2.2]
    · intro m hm
      have hm : m ∉ [8, 9, 10] := hm
      simp only [List.mem_cons, List.not_mem_nil, or_false, not_or] at hm
      simp only [if_neg hm.1, if_neg hm.2.1, if_neg hm.2.2]

/-- A node that makes a pair is replaced by a DFG node that does; the function then returns the same. -/
example : ∃ g map, ∃ f : Nat → Nat,
    simpleReplace pairTag (built pairHistory) (built pairNestedHistory) [5, 6, 7, 8, 9, 10, 11] = .ok g map ∧
    ∀ (S Sr : Sem Nat Nat), S.leaf = Sr.leaf → S.unknown = Sr.unknown →
      ∃ S', Merges (built pairHistory) (built pairNestedHistory) pairTag 5 6 f S Sr S' ∧
        ∀ k args outs, Returns g S' k args outs ↔ Returns (built pairHistory) S k args outs := by
  obtain ⟨g, map, f, h1, -, h2⟩ := C59_replace_results (W := Nat) (E := Nat) (news := [5, 6, 7, 8, 9, 10, 11]) pair_valid.1 pair_valid.2
    (forgets_built _) pairNested_valid.1 pairNested_valid.2 pair_removable pair_separable pairNested_body (by decide +kernel) pairNested_unordered
    (by decide +kernel) ⟨by decide, by decide +kernel⟩
  refine ⟨g, map, f, h1, fun S Sr hl hk => ?_⟩
  obtain ⟨⟨S', hS⟩, h4⟩ := h2 S Sr hl hk fun R ins outs => (pair_means S R ins outs).trans (pairNested_means Sr R ins outs).symm
  exact ⟨S', hS, h4 S' hS⟩

/-- That function pairs its arguments in the other order. -/
example (S : Sem Nat Nat) (a b : Val Nat) : Returns (built pairHistory) S 1 [a, b] [.sum 0 [b, a]] := by
  have hn : ∀ n, Inner (built pairHistory) 1 2 3 n → n = 4 := by
    rintro n ⟨h1, h2, h3⟩
    have h1 : n ∈ [2, 3, 4] := h1
    simp only [List.mem_cons, List.not_mem_nil, or_false] at h1
    rcases h1 with h1 | h1 | h1
    · exact absurd h1 h2
    · exact absurd h1 h3
    · exact h1
  refine ⟨⟨_, _, rfl⟩, fun n => if n = 2 then outWires [a, b] else if n = 4 then outWires [.sum 0 [b, a]] else if n = 3 then outWires []
    else noWires n, .graph (i := 2) (o := 3) (ins := fun _ => [b, a]) (outs := fun _ => [.sum 0 [b, a]]) ⟨_, rfl⟩ ?_ rfl rfl rfl ?_
      ?_ ?_ ?_ ?_⟩
  · intro m hm
    have hm : m ∉ [2, 3, 4] := hm
    simp only [List.mem_cons, List.not_mem_nil, or_false, not_or] at hm
    simp only [if_neg hm.1, if_neg hm.2.1, if_neg hm.2.2]
  · intro n h1
    cases hn n h1
    refine ⟨rfl, fun k v hk => ?_⟩
    rcases k with _ | _ | k
    · exact ⟨⟨2, 1, 4, 0⟩, by decide +kernel, rfl, rfl, hk⟩
    · exact ⟨⟨2, 0, 4, 1⟩, by decide +kernel, rfl, rfl, hk⟩
    · cases hk
  · intro n h1; cases hn n h1; rfl
  · intro n h1; cases hn n h1; rfl
  · intro n h1
    cases hn n h1
    exact (runs_tag (h := built pairHistory) rfl).2 rfl
  · refine ⟨rfl, fun k v hk => ?_⟩
    rcases k with _ | k
    · exact ⟨⟨4, 0, 3, 0⟩, by decide +kernel, rfl, rfl, hk⟩
    · cases hk

end Verif.Patch
