import Verif.Patch.CfgToDfgResults
import Verif.Patch.IdentityProps

/-!
# C74: a control-flow graph whose entry block goes to the exit becomes a dataflow graph
-/
namespace Verif.Patch

open Verif.Graph Verif.Ops Verif.Passes Verif.Validate Verif.Dataflow

variable {Meta : Type} {C : Validate.Context} {h g : Hugr Ops.Op Meta}

/-! ## Specification -/

/-- The only link from `b` is the only link to `c`. -/
def Chain (h : Hugr Ops.Op Meta) (b c : Nat) : Prop :=
  (h.links.filter fun l => l.src = b).map Link.dst = [c] ∧ (h.links.filter fun l => l.dst = c).map Link.src = [b]

/-- The control-flow graph `G` starts with the block `E` and ends with `X`. `E` always goes to `X`, nothing goes
back to `E`, and nothing in `G` is to be merged with what follows. -/
structure GoesStraight (h : Hugr Ops.Op Meta) (G E X : Nat) (sig : Types.Signature) : Prop where
  op : h.ops G = .cfg sig
  children : ∃ more, h.children G = E :: X :: more
  succ : (h.links.filter fun l => l.src = E).map Link.dst = [X]
  pred : ∀ l ∈ h.links, l.dst ≠ E
  merged : ∀ b ∈ h.children G, ∀ c, c ≠ E → c ≠ X → ¬ Chain h b c

/-- No constant that is a child of `G` is used in `E`. -/
def NoConstants (h : Hugr Ops.Op Meta) (G E : Nat) : Prop :=
  ∀ l ∈ h.links, h.hier.parent l.src = some G → ¬ Above h.hier.parent l.dst E

/-! ## Lemmas -/

theorem mergeable_none {G E X : Nat} {more : List Nat} (hc : h.children G = E :: X :: more) (n : Nat) :
    mergeable h G n = none ↔ ∀ c, c ≠ E → c ≠ X → ¬ Chain h n c := by
  unfold mergeable Chain
  rw [hc]
  change (match outputNeighbours h n with | [succ] => _ | _ => none) = none ↔
    ∀ c, c ≠ E → c ≠ X → ¬ (outputNeighbours h n = [c] ∧ inputNeighbours h c = [n])
  cases ho : outputNeighbours h n with
  | nil => simp
  | cons c cs =>
    cases cs with
    | cons _ _ => simp
    | nil =>
      have hmem : n ∈ inputNeighbours h c := by
        have : c ∈ outputNeighbours h n := by rw [ho]; simp
        obtain ⟨l, hl, rfl⟩ := List.mem_map.1 this
        obtain ⟨h1, h2⟩ := List.mem_filter.1 hl
        exact List.mem_map.2 ⟨l, List.mem_filter.2 ⟨h1, by simp⟩, by simpa using h2⟩
      have hlen : (inputNeighbours h c).length = 1 ↔ inputNeighbours h c = [n] := by
        constructor
        · intro e
          obtain ⟨x, hx⟩ := List.length_eq_one_iff.1 e
          rw [hx, List.mem_singleton] at hmem
          rw [hx, hmem]
        · intro e; rw [e]; rfl
      simp only [List.take_succ_cons, List.take_zero, List.mem_cons, List.not_mem_nil, or_false, List.cons.injEq, and_true]
      by_cases h1 : (inputNeighbours h c).length = 1
      · rw [if_neg (by simpa using h1)]
        by_cases h2 : c = E ∨ c = X
        · rw [if_pos h2]
          refine ⟨fun _ d d1 d2 e => ?_, fun _ => rfl⟩
          rcases h2 with h2 | h2
          · exact d1 (e.1.symm.trans h2)
          · exact d2 (e.1.symm.trans h2)
        · rw [if_neg h2]
          refine ⟨fun e => (nomatch e), fun hx => ?_⟩
          exact absurd ⟨rfl, hlen.1 h1⟩ (hx c (fun e => h2 (.inl e)) (fun e => h2 (.inr e)))
      · rw [if_pos (by simpa using h1)]
        refine ⟨fun _ d _ _ e => ?_, fun _ => rfl⟩
        obtain ⟨rfl, e⟩ := e
        exact h1 (hlen.2 e)

theorem findSome_none {α β : Type} {f : α → Option β} : ∀ {l : List α}, l.findSome? f = none ↔ ∀ x ∈ l, f x = none
  | [] => by simp
  | a :: l => by
    rw [List.findSome?_cons]
    cases ha : f a <;> simp [ha, findSome_none (l := l)]

/-- What a valid Hugr says about such a graph. -/
theorem GoesStraight.at' {G E X : Nat} {sig : Types.Signature} (ht : IsTree h) (hv : Valid C h)
    (hm : h.ops h.moduleRoot = .module) (hG : h.entrypoint = G) (hs : GoesStraight h G E X sig) (hf : NoConstants h G E) :
    ∃ p i o more inner row other, StraightAt C h p G E X i o more inner sig row other := by
  obtain ⟨more, hch⟩ := hs.children
  have hGl : h.live G = true := hG ▸ ht.entry_live
  have hne : G ≠ h.moduleRoot := by
    intro e; have := hs.op; rw [e, hm] at this; cases this
  obtain ⟨p, hp⟩ := ht.has_parent G hGl hne
  have hc := hv.children G hGl
  unfold ChildrenOk at hc
  rw [hs.op] at hc
  obtain ⟨entry, exit, rest, other, rows, c1, c2, c3, _⟩ := hc
  rw [hch] at c1
  cases c1
  have hE : E ∈ h.children G := by rw [hch]; simp
  have hX : X ∈ h.children G := by rw [hch]; simp
  have hEl : h.live E = true := (ht.parent_live _ _ ((ht.child_iff _ _).1 hE)).1
  have hcE := hv.children E hEl
  unfold ChildrenOk at hcE
  rw [c2] at hcE
  obtain ⟨i, o, inner, i1, i2, i3, i4⟩ : ∃ inp out rest, h.children E = inp :: out :: rest ∧
    h.ops inp = .input sig.input ∧ h.ops out = .output (sumOf rows :: other) ∧ ∀ c ∈ rest, ¬ IsIO (h.ops c) := hcE
  obtain ⟨l, hl, hd⟩ : ∃ l, (h.links.filter fun l => l.src = E) = [l] ∧ l.dst = X := by
    have hs := hs.succ
    cases hfil : h.links.filter fun l => l.src = E with
    | nil => rw [hfil] at hs; cases hs
    | cons l ls =>
      rw [hfil, List.map_cons] at hs
      cases ls with
      | cons _ _ => cases hs
      | nil => cases hs; exact ⟨l, rfl, rfl⟩
  have only : ∀ k ∈ h.links, k.src = E → k = l := by
    intro k hk e
    have : k ∈ h.links.filter fun l => l.src = E := List.mem_filter.2 ⟨hk, by simpa using e⟩
    rw [hl] at this; simpa using this
  obtain ⟨hlm, hls⟩ : l ∈ h.links ∧ l.src = E := by
    have : l ∈ h.links.filter fun l => l.src = E := by rw [hl]; simp
    obtain ⟨q1, q2⟩ := List.mem_filter.1 this
    exact ⟨q1, by simpa using q2⟩
  have onPort : ∀ q, q < rows.length → ∃ k ∈ h.links, k.src = E ∧ k.srcPort = q := by
    intro q hq
    have hk : ((h.ops E).ports .outgoing)[q]? = some .controlFlow := by
      rw [c2]; simp [Op.ports, hq]
    have := hv.outDegree E q _ hEl hk
    have hpos : 0 < (linksFrom h E q).length := by
      have : (linksFrom h E q).length = 1 := this
      omega
    obtain ⟨k, hk⟩ := List.exists_mem_of_length_pos hpos
    obtain ⟨q1, q2⟩ := List.mem_filter.1 hk
    simp only [Bool.and_eq_true, decide_eq_true_eq] at q2
    exact ⟨k, q1, q2.1, q2.2⟩
  have port : ∀ q, q < rows.length → l.srcPort = q := by
    intro q hq
    obtain ⟨k, k1, k2, k3⟩ := onPort q hq
    rw [only k k1 k2] at k3; exact k3
  obtain ⟨ins, other', rows', row, b1, b2, b3⟩ := hv.blocks l hlm G sig hs.op (by rw [hls]; exact hE) (by rw [hd]; exact hX)
  rw [hls, c2] at b1; cases b1
  have hlt := (List.getElem?_eq_some_iff.1 b2).1
  have hlen : rows.length = 1 := by
    by_contra hc
    have h0 := port 0 (by omega)
    have h1 := port 1 (by omega)
    omega
  have h0 : l.srcPort = 0 := port 0 (by omega)
  obtain ⟨r, hr⟩ := List.length_eq_one_iff.1 hlen
  rw [hr, h0] at b2
  have hrr : r = row := Option.some.inj b2
  subst hrr
  rw [hr] at c2 i3
  rw [hd, c3] at b3
  have houts : sig.output = r ++ other := by
    rcases b3 with ⟨_, _, e⟩ | e
    · cases e
    · exact (Op.exitBlock.inj e)
  exact ⟨p, i, o, more, inner, r, other, ht, hv, hG, hs.op, hp, hch, c2, c3, i1, i2, i3, i4, houts,
    fun k hk e => by rw [only k hk e]; exact ⟨hd, h0⟩, ⟨l, hlm, hls⟩, hs.pred, hf⟩

/-- What the code does with such a graph. -/
theorem StraightAt.runs {p G E X i o w : Nat} {more inner : List Nat} {sig : Types.Signature} {row other : List Types.Ty}
    (z : StraightAt C h p G E X i o more inner sig row other) (hs : GoesStraight h G E X sig) (hw : h.live w = false) :
    ∃ g, normalizeCfg h w = .toDfg g ∧ IsTree g ∧ AsDfg h G E o w sig row g := by
  obtain ⟨h1, h2, h3, e1, e2, e3, h4, old, e4, y⟩ := z.lift
  obtain ⟨g, f1, f2, f3, f4⟩ := y.finish z hw
  refine ⟨g, ?_, f3, f4⟩
  have hconv : cfgToDfg h G E w sig = some g := by
    unfold cfgToDfg
    rw [z.opE]
    have hsucc : (Op.dataflowBlock sig.input other [row]).successorInput 0 = some (row ++ other) := rfl
    rw [hsucc]
    simp only
    rw [← z.outs, if_neg (by simp)]
    simp only [e1, e2, e3, e4, f1, f2]
  have hfind : (h.children G).reverse.findSome? (mergeable h G) = none := by
    rw [findSome_none]
    intro x hx
    exact (mergeable_none z.children x).2 (hs.merged x (List.mem_reverse.1 hx))
  have hin : inputNeighbours h E = [] := by
    unfold inputNeighbours
    rw [List.map_eq_nil_iff, List.filter_eq_nil_iff]
    intro l hl
    simpa using hs.pred l hl
  unfold normalizeCfg
  rw [z.entry, z.op]
  simp only [hfind]
  rw [z.children]
  have hgp : h.getParent G = some p := by rw [getParent_eq z.tree]; exact z.parent
  rw [hgp]
  simp only [z.opE]
  rw [if_pos ⟨hs.succ, hin⟩, hconv]

/-! ## Theorems -/

/-- **C74** `normalize_cfg` on a control-flow graph whose entry block always goes to the exit gives a dataflow
graph with the nodes of the entry block. The tuple that the block outputs first is unpacked. All other blocks go,
and nothing else changes. -/
theorem C74_cfg_to_dfg_partial (ht : IsTree h) (hv : Valid C h) (hm : h.ops h.moduleRoot = .module) {E X w : Nat}
    {sig : Types.Signature} (hs : GoesStraight h h.entrypoint E X sig) (hf : NoConstants h h.entrypoint E)
    (hw : h.live w = false) :
    ∃ g i o row other, normalizeCfg h w = .toDfg g ∧ HasIO h E i o ∧
      h.ops E = .dataflowBlock sig.input other [row] ∧ sig.output = row ++ other ∧
      IsTree g ∧ AsDfg h h.entrypoint E o w sig row g := by
  obtain ⟨p, i, o, more, inner, row, other, z⟩ := hs.at' ht hv hm rfl hf
  obtain ⟨g, h1, h2, h3⟩ := z.runs hs hw
  exact ⟨g, i, o, row, other, h1, ⟨_, z.inside⟩, z.opE, z.outs, h2, h3⟩

/-- **C74** What `normalize_cfg` gives is a valid Hugr, if `UnpackTuple` is the operation of the prelude. -/
theorem C74_cfg_to_dfg_valid_partial (ht : IsTree h) (hv : Valid C h) (hm : h.ops h.moduleRoot = .module) {E X w : Nat}
    {sig : Types.Signature} (hs : GoesStraight h h.entrypoint E X sig) (hf : NoConstants h h.entrypoint E)
    (hw : h.live w = false) (hC : C.defs "prelude" "UnpackTuple" = .poly [.listType (.runtimeType .linear)])
    (hg : normalizeCfg h w = .toDfg g) : Valid C g := by
  obtain ⟨p, i, o, more, inner, row, other, z⟩ := hs.at' ht hv hm rfl hf
  obtain ⟨g', h1, h2, h3⟩ := z.runs hs hw
  rw [hg] at h1; cases h1
  exact BecomesDfg.valid_g (w := w) ⟨z, h3, h2, hw, hC⟩

/-- **C74** Functions return what they did before. -/
theorem C74_cfg_to_dfg_returns_partial (ht : IsTree h) (hv : Valid C h) (hm : h.ops h.moduleRoot = .module) {E X w : Nat}
    {sig : Types.Signature} (hs : GoesStraight h h.entrypoint E X sig) (hf : NoConstants h h.entrypoint E)
    (hw : h.live w = false) (hb : ¬ IsDefn h w)
    (hC : C.defs "prelude" "UnpackTuple" = .poly [.listType (.runtimeType .linear)])
    (hg : normalizeCfg h w = .toDfg g) {W K : Type} (S : Sem W K) (f : Nat) (args outs : List (Val W)) :
    Returns g S f args outs ↔ Returns h S f args outs := by
  obtain ⟨p, i, o, more, inner, row, other, z⟩ := hs.at' ht hv hm rfl hf
  obtain ⟨g', h1, h2, h3⟩ := z.runs hs hw
  rw [hg] at h1; cases h1
  exact (BecomesDfg.returns (w := w) ⟨z, h3, h2, hw, hC⟩ hb).symm

/-- **C74** Only such control-flow graphs become dataflow graphs. -/
theorem C74_cfg_to_dfg_only {w : Nat} (hg : normalizeCfg h w = .toDfg g) :
    ∃ E X sig, GoesStraight h h.entrypoint E X sig := by
  unfold normalizeCfg at hg
  cases ho : h.ops h.entrypoint with
  | cfg sig =>
    rw [ho] at hg
    simp only at hg
    cases hfind : (h.children h.entrypoint).reverse.findSome? (mergeable h h.entrypoint) with
    | some r =>
      obtain ⟨n, succ⟩ := r
      rw [hfind] at hg
      simp only at hg
      split at hg <;> cases hg
    | none =>
      rw [hfind] at hg
      simp only at hg
      split at hg
      · rename_i entry exit more _ hch _
        split at hg
        · split at hg
          · rename_i hcond
            refine ⟨entry, exit, sig, ho, ⟨more, hch⟩, hcond.1, ?_, ?_⟩
            · intro l hl e
              have : l.src ∈ inputNeighbours h entry := List.mem_map.2 ⟨l, List.mem_filter.2 ⟨hl, by simpa using e⟩, rfl⟩
              rw [hcond.2] at this; cases this
            · intro b hb
              rw [findSome_none] at hfind
              exact (mergeable_none hch b).1 (hfind b (List.mem_reverse.2 hb))
          · cases hg
        · cases hg
      · cases hg
  | _ => rw [ho] at hg; cases hg

theorem plainRow_iff : ∀ {r : List Types.RTy} {row : List Types.Ty}, plainRow r = some row ↔ r = rvRow row
  | [], row => by cases row <;> simp [plainRow, rvRow]
  | .ty t :: r, row => by
    cases row with
    | nil => simp [plainRow, rvRow]
    | cons t' ts =>
      have : rvRow (t' :: ts) = .ty t' :: rvRow ts := rfl
      rw [this]
      simp only [plainRow, Option.map_eq_some_iff, List.cons.injEq]
      constructor
      · rintro ⟨a, h1, rfl, rfl⟩; exact ⟨rfl, plainRow_iff.1 h1⟩
      · rintro ⟨h1, h2⟩
        injection h1 with h1
        exact ⟨ts, plainRow_iff.2 h2, h1, rfl⟩
  | .rowVar i b :: r, row => by
    cases row with
    | nil => simp [plainRow, rvRow]
    | cons t ts =>
      have : rvRow (t :: ts) = .ty t :: rvRow ts := rfl
      rw [this]; simp [plainRow]

/-- **C74** What is unpacked is a tuple: a sum with one variant, without variables for rows. -/
theorem C74_tuple_types (k : Option Kind) (row : List Types.Ty) : tupleElems k = some row ↔
    (k = some (.value (.sumUnit 1)) ∧ row = []) ∨ ∃ b, k = some (.value (.sumGen [rvRow row] b)) := by
  unfold tupleElems
  split
  · constructor
    · intro e; cases e; exact .inl ⟨rfl, rfl⟩
    · rintro (⟨_, rfl⟩ | ⟨b, e⟩)
      · rfl
      · cases e
  · rename_i r b
    rw [plainRow_iff]
    constructor
    · rintro rfl; exact .inr ⟨b, rfl⟩
    · rintro (⟨e, _⟩ | ⟨b, e⟩)
      · cases e
      · cases e; rfl
  · rename_i h1 h2
    constructor
    · intro e; cases e
    · rintro (⟨e, _⟩ | ⟨b, e⟩)
      · exact absurd e h1
      · exact absurd e (h2 _ _)

/-! ## Examples -/

/-- A tuple of two values, and a sum of two variants that is no tuple. -/
example : tupleElems (some (.value (sumOf [[.sumUnit 2, .sumUnit 3]]))) = some [.sumUnit 2, .sumUnit 3] ∧
    tupleElems (some (.value (.sumUnit 2))) = none := by decide +kernel


/-- A context where `UnpackTuple` is known. -/
def unpackContext : Validate.Context :=
  { anaContext with defs := fun e n =>
      if e = "prelude" ∧ n = "UnpackTuple" then .poly [.listType (.runtimeType .linear)] else .missing }

/-- A type of three values. -/
def three : Types.Ty := .sumUnit 3

/-- `main` is a control-flow graph of a block that makes a tuple of the first input; the second is passed on. With
`loads`, the block also loads a constant of the control-flow graph that many times. -/
def straightHistory (loads : Nat) : List (Cmd Ops.Op String) :=
  [ .addNodeWithParent 1 0 (.funcDefn "main" ⟨[], ⟨[bool, three], [bool, three]⟩⟩),
    .addNodeWithParent 2 1 (.input [bool, three]), .addNodeWithParent 3 1 (.output [bool, three]),
    .addNodeWithParent 4 1 (.cfg ⟨[bool, three], [bool, three]⟩),
    .addNodeWithParent 5 4 (.dataflowBlock [bool, three] [three] [[bool]]),
    .addNodeWithParent 6 4 (.exitBlock [bool, three]),
    .addNodeWithParent 7 5 (.input [bool, three]), .addNodeWithParent 8 5 (.output [sumOf [[bool]], three]),
    .addNodeWithParent 9 5 (.tag 0 [[bool]]),
    .connect ⟨2, 0, 4, 0⟩, .connect ⟨2, 1, 4, 1⟩, .connect ⟨4, 0, 3, 0⟩, .connect ⟨4, 1, 3, 1⟩,
    .connect ⟨5, 0, 6, 0⟩, .connect ⟨7, 0, 9, 0⟩, .connect ⟨9, 0, 8, 0⟩, .connect ⟨7, 1, 8, 1⟩ ] ++
  (if 0 < loads then [.addNodeWithParent 10 4 (.const bool)] else []) ++
  (List.range loads).flatMap (fun k => [.addNodeWithParent (11 + k) 5 (.loadConstant bool), .connect ⟨10, 0, 11 + k, 0⟩]) ++
  [ .setEntrypoint 4 ]

def straightHugr (loads : Nat) : Hugr Ops.Op String := built (straightHistory loads)

theorem straight_ok (loads : Nat) (hl : loads < 3) : IsTree (straightHugr loads) ∧ Valid unpackContext (straightHugr loads) := by
  have hl' : loads = 0 ∨ loads = 1 ∨ loads = 2 := by omega
  rcases hl' with rfl | rfl | rfl
  · obtain ⟨h1, h2⟩ := built_ok (straightHistory 0) (by decide +kernel) (by decide +kernel)
    exact ⟨h1, (C47_validate_iff_partial _ _ h1 h2).1 (by decide +kernel)⟩
  · obtain ⟨h1, h2⟩ := built_ok (straightHistory 1) (by decide +kernel) (by decide +kernel)
    exact ⟨h1, (C47_validate_iff_partial _ _ h1 h2).1 (by decide +kernel)⟩
  · obtain ⟨h1, h2⟩ := built_ok (straightHistory 2) (by decide +kernel) (by decide +kernel)
    exact ⟨h1, (C47_validate_iff_partial _ _ h1 h2).1 (by decide +kernel)⟩

theorem straight_goes : GoesStraight (straightHugr 0) 4 5 6 ⟨[bool, three], [bool, three]⟩ := by
  refine ⟨rfl, ⟨[], by decide +kernel⟩, by decide +kernel, by decide +kernel, ?_⟩
  have : ∀ b ∈ (straightHugr 0).children 4, mergeable (straightHugr 0) 4 b = none := by decide +kernel
  exact fun b hb => (mergeable_none (by decide +kernel : (straightHugr 0).children 4 = 5 :: 6 :: []) b).1 (this b hb)

/-- The children of a node and the links of the result. -/
def Normalized.view? (n : Nat) : Normalized Meta → Option (List Nat × List Link)
  | .toDfg g => some (g.children n, g.links)
  | _ => none

/-- The hypotheses are met, and the result is as expected. -/
example : ∃ g, normalizeCfg (straightHugr 0) 10 = .toDfg g ∧ Valid unpackContext g ∧ g.children 4 = [7, 8, 9, 10] ∧
    g.links = [⟨2, 0, 4, 0⟩, ⟨2, 1, 4, 1⟩, ⟨4, 0, 3, 0⟩, ⟨4, 1, 3, 1⟩, ⟨7, 0, 9, 0⟩, ⟨9, 0, 10, 0⟩, ⟨10, 0, 8, 0⟩,
      ⟨7, 1, 8, 1⟩] := by
  have hf : NoConstants (straightHugr 0) 4 5 := by
    have : ∀ l ∈ (straightHugr 0).links, (straightHugr 0).hier.parent l.src = some 4 → l.dst = 6 := by decide +kernel
    intro l hl hp ha
    rw [this l hl hp] at ha
    rcases above_cases ha with e | ⟨q, hq, hqa⟩
    · cases e
    · have : (straightHugr 0).hier.parent 6 = some 4 := by decide +kernel
      rw [this] at hq; cases hq
      have h4 : (straightHugr 0).hier.parent 5 = some 4 := by decide +kernel
      exact (straight_ok 0 (by decide)).1.acyclic _ _ h4 hqa
  obtain ⟨g, _, _, _, _, h1, _⟩ := C74_cfg_to_dfg_partial (straight_ok 0 (by decide)).1 (straight_ok 0 (by decide)).2 rfl
    (w := 10) straight_goes hf (by decide +kernel)
  have hv := C74_cfg_to_dfg_valid_partial (straight_ok 0 (by decide)).1 (straight_ok 0 (by decide)).2 rfl
    straight_goes hf (by decide +kernel) rfl h1
  have : (normalizeCfg (straightHugr 0) 10).view? 4 = some ([7, 8, 9, 10],
    [⟨2, 0, 4, 0⟩, ⟨2, 1, 4, 1⟩, ⟨4, 0, 3, 0⟩, ⟨4, 1, 3, 1⟩, ⟨7, 0, 9, 0⟩, ⟨9, 0, 10, 0⟩, ⟨10, 0, 8, 0⟩, ⟨7, 1, 8, 1⟩]) := by
    decide +kernel
  rw [h1] at this
  have := Option.some.inj this
  exact ⟨g, h1, hv, (Prod.mk.inj this).1, (Prod.mk.inj this).2⟩

/-! ## Findings -/

/-- **C74** In a valid Hugr, a control-flow graph with a constant that is loaded once makes `merge_basic_blocks`
panic: it takes the constant and the operation that loads it for basic blocks, normalize_cfgs.rs:41-49 and
346-347. -/
theorem C74_merge_constant_panics : ∃ h : Hugr Ops.Op String, IsTree h ∧ Valid unpackContext h ∧
    (∃ sig, h.ops h.entrypoint = .cfg sig) ∧ ∀ w, normalizeCfg h w = .panic := by
  refine ⟨straightHugr 1, (straight_ok 1 (by decide)).1, (straight_ok 1 (by decide)).2, ⟨_, rfl⟩, fun w => ?_⟩
  have h1 : ((straightHugr 1).children (straightHugr 1).entrypoint).reverse.findSome?
      (mergeable (straightHugr 1) (straightHugr 1).entrypoint) = some (10, 11) := by decide +kernel
  have h2 : (straightHugr 1).ops (straightHugr 1).entrypoint = .cfg ⟨[bool, three], [bool, three]⟩ := rfl
  unfold normalizeCfg
  rw [h2]
  simp only [h1]
  rfl

/-- **C74** In a valid Hugr, when the entry block loads a constant of the control-flow graph twice, then what
`normalize_cfg` gives is not valid: the constant is removed with the blocks, normalize_cfgs.rs:207-210. -/
theorem C74_constant_lost_refuted : ∃ h g : Hugr Ops.Op String, IsTree h ∧ Valid unpackContext h ∧
    (∃ w, h.live w = false ∧ normalizeCfg h w = .toDfg g) ∧ ¬ Valid unpackContext g := by
  have hrun : ∃ g, normalizeCfg (straightHugr 2) 13 = .toDfg g := by
    have : ((normalizeCfg (straightHugr 2) 13).view? 4).isSome = true := by decide +kernel
    cases hn : normalizeCfg (straightHugr 2) 13 with
    | toDfg g => exact ⟨g, rfl⟩
    | _ => rw [hn] at this; cases this
  obtain ⟨g, hg⟩ := hrun
  refine ⟨straightHugr 2, g, (straight_ok 2 (by decide)).1, (straight_ok 2 (by decide)).2, ⟨13, by decide +kernel, hg⟩, ?_⟩
  intro hv
  let ask : Normalized String → Option (Bool × Nat) := fun n =>
    match n with
    | .toDfg g => some (g.live 11, (g.links.filter fun l => decide (l.dst = 11) && decide (l.dstPort = 0)).length)
    | _ => none
  have h1 : ask (normalizeCfg (straightHugr 2) 13) = some (true, 0) := by decide +kernel
  let op : Normalized String → Option Ops.Op := fun n => match n with | .toDfg g => some (g.ops 11) | _ => none
  have h2 : op (normalizeCfg (straightHugr 2) 13) = some (.loadConstant bool) := rfl
  rw [hg] at h1 h2
  have h1 := Prod.mk.inj (Option.some.inj h1)
  have h2 := Option.some.inj h2
  have := hv.inDegree 11 0 (.const bool) h1.1 (by rw [h2]; rfl)
  have h3 : (linksTo g 11 0).length = 0 := h1.2
  rw [h3] at this
  exact absurd this (by simp [InDegreeOk])

end Verif.Patch
