import Verif.Patch.UntupleKeep
import Mathlib.Tactic.Common

/-!
# The rewrites that `UntuplePass` finds
-/
namespace Verif.Patch

open Verif.Graph Verif.Ops Verif.Passes Verif.Validate Verif.Dataflow Relation

variable {Meta : Type} {C : Validate.Context} {h r : Hugr Ops.Op Meta} {p n : Nat} {s : Subgraph}

/-! ## Lists -/

theorem filter_range_sublist {c : Nat → Bool} {k : Nat} : ∀ N, (∀ q < N, c q = true → q < k) →
    ((List.range N).filter c).Sublist (List.range k) := by
  intro N hc
  induction N with
  | zero => simp
  | succ N ih =>
    have ih := ih fun q hq => hc q (by omega)
    rw [List.range_succ, List.filter_append]
    by_cases hN : c N = true
    · have hlt := hc N (by omega) hN
      have h1 : (List.range (N + 1)).Sublist (List.range k) := List.range_sublist.2 (by omega)
      rw [← List.filter_append, ← List.range_succ]
      exact List.filter_sublist.trans h1
    · rw [List.filter_cons_of_neg hN, List.filter_nil, List.append_nil]
      exact ih

theorem filter_range_eq {c : Nat → Bool} {k N : Nat} (hk : k ≤ N) (h1 : ∀ q < N, c q = true → q < k) (h2 : ∀ q < k, c q = true) :
    (List.range N).filter c = List.range k := by
  refine (filter_range_sublist N h1).eq_of_length_le ?_
  have : (List.range k).filter c = List.range k := List.filter_eq_self.2 fun q hq => h2 q (List.mem_range.1 hq)
  calc (List.range k).length = ((List.range k).filter c).length := by rw [this]
    _ ≤ _ := ((List.range_sublist.2 hk).filter c).length_le

theorem flatMap_sublist {α β : Type} {f g : α → List β} : ∀ {l : List α}, (∀ x ∈ l, (f x).Sublist (g x)) →
    (l.flatMap f).Sublist (l.flatMap g)
  | [], _ => by simp
  | x :: xs, hf => by
    simp only [List.flatMap_cons]
    exact (hf x (by simp)).append (flatMap_sublist fun y hy => hf y (by simp [hy]))

/-- The outputs of the nodes that unpack. -/
def unpacked (us : List Nat) (k : Nat) : List (Nat × Nat) := us.flatMap fun u => (List.range k).map fun q => (u, q)

theorem unpacked_length (us : List Nat) (k : Nat) : (unpacked us k).length = k * us.length := by
  unfold unpacked
  induction us with
  | nil => simp
  | cons u us ih => simp only [List.flatMap_cons, List.length_append, ih, List.length_map, List.length_range, List.length_cons]; ring

theorem cycled_length {sig : Types.Signature} {m : Nat} : (cycledWires sig (sig.input.length * m)).length = sig.input.length * m := by
  unfold cycledWires
  by_cases hs : sig.input = []
  · simp [hs]
  · simp [hs]

theorem cycled_eq {sig : Types.Signature} (us : List Nat) (hn : n ∉ us) :
    cycledWires sig (sig.input.length * us.length) = (unpacked us sig.input.length).map (PackAt.asWire n) := by
  unfold cycledWires unpacked
  by_cases hs : sig.input = []
  · simp [hs]
  · rw [if_neg hs]
    induction us with
    | nil => simp
    | cons u us ih =>
      have hu : u ≠ n := fun e => hn (by simp [e])
      have hpos : 0 < sig.input.length := List.length_pos_iff.2 hs
      rw [List.length_cons, Nat.mul_succ, Nat.add_comm, List.range_add, List.map_append, List.flatMap_cons, List.map_append,
        ← ih fun e => hn (by simp [e])]
      congr 1
      · rw [List.map_map]
        refine List.map_congr_left fun j hj => ?_
        simp only [Function.comp, PackAt.asWire, if_neg hu]
        rw [Nat.mod_eq_of_lt (List.mem_range.1 hj)]
      · rw [List.map_map]
        refine List.map_congr_left fun j _ => ?_
        simp

/-! ## Tuples -/

/-- The operations that make and unpack tuples have the signatures of their definition: one output or input, the tuple type of
the others. -/
structure TupleOps (h : Hugr Ops.Op Meta) : Prop where
  pack : ∀ n a sg, h.ops n = .extensionOp "prelude" "MakeTuple" a sg → sg.output = [sumOf [sg.input]]
  unpack : ∀ n a sg, h.ops n = .extensionOp "prelude" "UnpackTuple" a sg → sg.input = [sumOf [sg.output]]

theorem rvRow_inj {a b : List Types.Ty} (e : rvRow a = rvRow b) : a = b := by
  unfold rvRow at e
  exact (List.map_injective_iff.2 fun x y e => by cases e; rfl) e

/-- Tuple types tell what is in the tuple. -/
theorem tuple_inj {a b : List Types.Ty} (e : sumOf [a] = sumOf [b]) : a = b := by
  unfold sumOf Types.Ty.newSum at e
  simp only [List.map_cons, List.map_nil] at e
  split at e <;> split at e
  · rename_i h1 h2
    have e1 : a = [] := by simpa [rvRow] using h1
    have e2 : b = [] := by simpa [rvRow] using h2
    rw [e1, e2]
  · simp [Types.Ty.general] at e
  · simp [Types.Ty.general] at e
  · simp only [Types.Ty.general, Types.Ty.sumGen.injEq, List.cons.injEq, and_true] at e
    exact rvRow_inj e.1

theorem isTupleOp_ext {name : String} {op : Ops.Op} (hop : isTupleOp name op = true) :
    ∃ a sg, op = .extensionOp "prelude" name a sg := by
  unfold isTupleOp at hop
  split at hop
  · simp only [Bool.and_eq_true, beq_iff_eq] at hop
    obtain ⟨⟨rfl, rfl⟩, _⟩ := hop
    exact ⟨_, _, rfl⟩
  · cases hop

theorem mem_tupleUses {m : Nat} : m ∈ tupleUses h n ↔ ∃ q, (⟨n, 0, m, q⟩ : Link) ∈ h.links := by
  unfold tupleUses
  rw [List.mem_map]
  constructor
  · rintro ⟨t, ht, rfl⟩
    exact ⟨t.2, mem_linkedInputs.1 ht⟩
  · rintro ⟨q, hq⟩
    exact ⟨(m, q), mem_linkedInputs.2 hq, rfl⟩

/-- The boundary that `try_from_nodes` gives. -/
theorem fromNodes_boundary {nodes : List Nat} (hs : tryFromNodes h nodes = .ok s) :
    ∃ inputs, boundaryInputs h (firstOccurrences nodes) = some inputs ∧
      s.outputs = boundaryOutputs h (firstOccurrences nodes) ∧ s.inputs = inputs.filter fun part => !isCallPart h part := by
  cases nodes with
  | nil => cases hs
  | cons m ms =>
    unfold tryFromNodes at hs
    simp only [] at hs
    split at hs
    · cases hs
    · split at hs
      · cases hs
      · rename_i inputs hb
        refine ⟨inputs, hb, ?_⟩
        split at hs
        · rename_i he
          cases hs
          simp only [Bool.and_eq_true, decide_eq_true_eq] at he
          simp [he.1, he.2]
        · have key : ∀ region s', tryNewWithChecker h region inputs (boundaryOutputs h (firstOccurrences (m :: ms))) = .ok s' →
              s'.outputs = boundaryOutputs h (firstOccurrences (m :: ms)) ∧ s'.inputs = inputs.filter fun part => !isCallPart h part := by
            intro region s' e
            unfold tryNewWithChecker at e
            cases hd : drainFunctionCalls h inputs with
            | none => rw [hd] at e; cases e
            | some x =>
              rw [hd] at e
              obtain ⟨rest, calls⟩ := x
              simp only [] at e
              have hrest : rest = inputs.filter fun part => !isCallPart h part := by
                unfold drainFunctionCalls at hd
                split at hd
                · cases hd; rfl
                · cases hd
              split at e
              · split at e
                · cases e
                · cases e; exact ⟨rfl, hrest⟩
              · cases e
              · cases e
          split at hs
          · rename_i s' hs'
            have := key _ _ hs'
            split at hs
            · cases hs; exact this
            · cases hs; exact this
          · rename_i e hne
            exact absurd hs (hne s)

theorem firstOccurrences_eq {l : List Nat} (hl : l.Nodup) : firstOccurrences l = l := by
  unfold firstOccurrences
  rw [List.dedup_eq_self.2 (List.nodup_reverse.2 hl), List.reverse_reverse]

/-- Values of the region are used in it. Where the region is no block of a control-flow graph, this holds in each valid Hugr. -/
def UsedInside (h : Hugr Ops.Op Meta) (p : Nat) : Prop :=
  ∀ ins other rows, h.ops p = .dataflowBlock ins other rows → ∀ l ∈ h.links, h.hier.parent l.src = some p → Inside h p l.dst

/-- A value that leaves some leaves of the region, together with no order link, stays in the region. -/
theorem stays_inside (ht : IsTree h) (hv : Valid C h) (hp : (body (h.ops p)).isSome = true) (hu : UsedInside h p) {N : List Nat}
    (hN : ∀ m ∈ N, h.hier.parent m = some p ∧ h.children m = []) (hc : Crossable h N) {l : Link} (hl : l ∈ h.links) (h1 : l.src ∈ N)
    (h2 : l.dst ∉ N) {t : Types.Ty} (hk : srcKind h l = some (.value t)) : h.hier.parent l.dst = some p := by
  obtain ⟨kind, k1, _, p', e1, e2⟩ := hv.kinds l hl
  rw [hk] at k1; cases k1
  rw [(hN _ h1).1] at e1; cases e1
  rcases e2 with e2 | ⟨q, a, e2, e3, ⟨e4, _⟩ | ⟨_, ⟨e4, o, ho, o1, o2, o3⟩ | ⟨g, sig, entry, rest, e4, e5, e6, e7, e8, _⟩⟩⟩
  · exact e2
  · cases e4
  · have ha : a ∉ N := by
      intro ha
      have : ∃ c, h.hier.parent c = some a := by
        by_cases hqa : q = a
        · exact ⟨_, hqa ▸ e2⟩
        · obtain ⟨c, hc⟩ := e3.last hqa
          exact ⟨c, hc.2⟩
      obtain ⟨c, hcc⟩ := this
      have := (ht.child_iff _ _).2 hcc
      change c ∈ h.children a at this
      rw [(hN a ha).2] at this; cases this
    rcases hc o ho (by unfold Crosses; rw [o1, o2]; tauto) with ⟨t', h3⟩ | ⟨_, t', h3⟩
    · rw [o3] at h3; cases h3
    · rw [o3] at h3; cases h3
  · exfalso
    have hblock : ∃ i o rows, h.ops p = .dataflowBlock i o rows := by
      have := hv.contains p g e5
      rw [e7] at this
      unfold MayContain at this
      simp only [] at this
      cases hop : h.ops p with
      | dataflowBlock i o rows => exact ⟨i, o, rows, rfl⟩
      | exitBlock => rw [hop] at hp; cases hp
      | const => rw [hop] at hp; cases hp
      | _ => rw [hop] at this; cases this
    obtain ⟨i, o, rows, hop⟩ := hblock
    obtain ⟨q', q1, q2⟩ := hu i o rows hop l hl (hN _ h1).1
    rw [e2] at q1; cases q1
    have key : ∀ x y, h.hier.parent x = some g → h.hier.parent y = some g → x ≠ y → ¬ Above h.hier.parent x y := by
      intro x y hx hy hne hab
      cases hab with
      | refl => exact hne rfl
      | step h3 h4 =>
        rw [hx] at h3; cases h3
        exact ht.acyclic y g hy h4
    rcases e3.total q2 with h3 | h3
    · exact key a p e6 e5 e4 h3
    · exact key p a e5 e6 (Ne.symm e4) h3

/-- What `make_rewrite` gives is a rewrite of a packed tuple. -/
theorem makeRewrite_rewrites {debug : Bool} (ht : IsTree h) (hv : Valid C h) (hto : TupleOps h) (hu : UsedInside h p)
    (hn : h.hier.parent n = some p) (hm : makeRewrite C debug h n = .rewrite s r) :
    Rewrites C h p n s r ∧ ∀ m, m ∈ s.nodes ↔ m = n ∨ m ∈ unpackNodes h n := by
  unfold makeRewrite at hm
  by_cases hpack : isTupleOp "MakeTuple" (h.ops n) = true
  swap
  · rw [if_neg hpack] at hm; cases hm
  rw [if_pos hpack] at hm
  split at hm
  · cases hm
  split at hm
  swap
  · cases hm
  rename_i s' r' hrem
  cases hm
  set us := unpackNodes h n with hus
  obtain ⟨a, sg, hop⟩ := isTupleOp_ext hpack
  have htypes : inputTypes (h.ops n) = sg.input := by rw [hop]; rfl
  rw [htypes] at hrem
  set k := sg.input.length with hk
  have hout := hto.pack _ _ _ hop
  set t := sumOf [sg.input] with htdef
  have hlive : h.live n = true := (ht.parent_live _ _ hn).1
  have hkind0 : ((h.ops n).ports .outgoing)[0]? = some (.value t) := by rw [hop, PackAt.out_kind, hout]; rfl
  have hp : (body (h.ops p)).isSome = true := by
    have := hv.contains n p hn
    rw [hop] at this
    cases hp : h.ops p with
    | funcDefn | dfg | case | tailLoop | dataflowBlock => rfl
    | _ => rw [hp] at this; simp [MayContain, body, DataflowChild] at this
  -- the nodes that unpack
  have hmemu : ∀ u ∈ us, h.hier.parent u = some p ∧ (∃ b sg', h.ops u = .extensionOp "prelude" "UnpackTuple" b sg' ∧
      sg'.output = sg.input ∧ sg'.input = [t]) ∧ (⟨n, 0, u, 0⟩ : Link) ∈ h.links ∧
      ∀ q, (⟨n, 0, u, q⟩ : Link) ∈ h.links → q = 0 := by
    intro u hmem
    rw [hus] at hmem
    obtain ⟨h1, h2⟩ := List.mem_filter.1 hmem
    rw [Bool.and_eq_true, decide_eq_true_eq, getParent_eq ht, getParent_eq ht, hn] at h2
    obtain ⟨b, sg', h3⟩ := isTupleOp_ext h2.2
    have h4 := hto.unpack _ _ _ h3
    have hq : ∀ q, (⟨n, 0, u, q⟩ : Link) ∈ h.links → q = 0 ∧ sumOf [sg'.output] = t := by
      intro q hl
      obtain ⟨kind, k1, k2, _⟩ := hv.kinds _ hl
      simp only [srcKind] at k1
      rw [hkind0] at k1; cases k1
      simp only [] at k2
      rw [h3, PackAt.in_kind, h4] at k2
      match q, k2 with
      | 0, k2 => exact ⟨rfl, by simpa using k2⟩
      | 1, k2 => cases k2
      | (x + 2), k2 => cases k2
    obtain ⟨q, hl⟩ := mem_tupleUses.1 h1
    obtain ⟨rfl, e⟩ := hq q hl
    exact ⟨h2.1, ⟨b, sg', h3, tuple_inj e, by rw [h4, e]⟩, hl, fun q hl => (hq q hl).1⟩
  have hune : ∀ u ∈ us, u ≠ n := by
    rintro u hmem rfl
    obtain ⟨_, ⟨b, sg', h1, _⟩, _⟩ := hmemu u hmem
    rw [hop] at h1; simp at h1
  have hlu : ∀ u ∈ us, h.live u = true := fun u hmem => (ht.parent_live _ _ (hmemu u hmem).1).1
  have hku : ∀ u ∈ us, ((h.ops u).ports .incoming)[0]? = some (.value t) := by
    intro u hmem
    obtain ⟨_, ⟨b, sg', h1, _, h2⟩, _⟩ := hmemu u hmem
    rw [h1, PackAt.in_kind, h2]; rfl
  have honly : ∀ u ∈ us, ∀ l ∈ h.links, l.dst = u → l.dstPort = 0 → l.src = n ∧ l.srcPort = 0 := by
    intro u hmem l hl h1 h2
    obtain ⟨x, y, _, he⟩ := one_link hv (hlu u hmem) (hku u hmem)
    have e1 := (he l.src l.srcPort).1 (by rw [← h1, ← h2]; exact hl)
    have e2 := (he n 0).1 (hmemu u hmem).2.2.1
    exact ⟨e1.1.trans e2.1.symm, e1.2.trans e2.2.symm⟩
  have hnd : us.Nodup := by
    rw [List.nodup_iff_count_le_one]
    intro u
    by_cases hmem : u ∈ us
    swap
    · rw [List.count_eq_zero_of_not_mem hmem]; omega
    have h1 : us.count u ≤ (tupleUses h n).count u := by
      rw [hus]; exact (List.filter_sublist).count_le u
    have h2 : (tupleUses h n).count u ≤ (linksTo h u 0).length := by
      unfold tupleUses Hugr.linkedInputs linksTo
      rw [List.map_map, List.count, List.countP_map, ← List.countP_eq_length_filter, List.countP_filter]
      refine List.countP_mono_left fun l hl hc => ?_
      simp only [Function.comp, Bool.and_eq_true, beq_iff_eq, decide_eq_true_eq] at hc ⊢
      obtain ⟨rfl, e1, e2⟩ := hc
      exact ⟨rfl, (hmemu _ hmem).2.2.2 _ (by rw [← e1, ← e2]; exact hl)⟩
    have h3 := hv.inDegree u 0 _ (hlu u hmem) (hku u hmem)
    simp only [InDegreeOk] at h3
    omega
  -- the subgraph
  set N := us ++ [n] with hNdef
  have hNnd : N.Nodup := by
    rw [hNdef]
    exact List.nodup_append.2 ⟨hnd, by simp, by intro x hx y hy; rw [List.mem_singleton.1 hy]; exact hune x hx⟩
  have hNmem : ∀ m, m ∈ N ↔ m = n ∨ m ∈ us := by intro m; rw [hNdef]; simp [or_comm]
  have hNp : ∀ m ∈ N, h.hier.parent m = some p := by
    intro m hmem
    rcases (hNmem m).1 hmem with rfl | hmem
    · exact hn
    · exact (hmemu m hmem).1
  have hNleaf : ∀ m ∈ N, h.children m = [] := by
    intro m hmem
    have := hv.children m (ht.parent_live _ _ (hNp m hmem)).1
    unfold ChildrenOk at this
    rcases (hNmem m).1 hmem with rfl | hmem
    · rw [hop] at this; exact this
    · obtain ⟨_, ⟨b, sg', h1, _⟩, _⟩ := hmemu m hmem
      rw [h1] at this; exact this
  unfold removePackUnpack at hrem
  split at hrem
  swap
  · cases hrem
  rename_i s1 hfrom
  split at hrem
  · cases hrem
  rename_i sig hsig
  split at hrem
  · cases hrem
  split at hrem
  · cases hrem
  rename_i r1 hbody
  split at hrem
  swap
  · cases hrem
  rename_i hval
  split at hrem
  swap
  · cases hrem
  rename_i htry
  cases hrem
  obtain ⟨f1, f2, f3⟩ := C61_from_nodes ht hv hp (by simp [hNdef]) hNp
  obtain ⟨m1, m2, m3, m4, _⟩ := f3 s hfrom
  have hone : ∀ m ∈ N, ∀ port, (linksTo h m port).length ≤ 1 := by
    intro m hmem port
    by_contra hlt
    have := f1.2 ⟨m, hmem, port, by omega⟩
    rw [hfrom] at this; cases this
  have hcr : Crossable h N := ((f2 hone).1 ⟨s, hfrom⟩).1
  obtain ⟨inputs, b1, b2, b3⟩ := fromNodes_boundary hfrom
  rw [firstOccurrences_eq hNnd] at b1 b2
  have b4 := (boundaryInputs_eq ht hv).2 inputs b1
  have hacyc := hv.acyclic p (ht.parent_live _ _ hn).2 hp
  have hfed : ∀ l ∈ h.links, l.dst ∈ us → l.src ∈ N := by
    intro l hl hd
    by_contra hs
    obtain ⟨kind, k1, k2, _⟩ := hv.kinds l hl
    have hval : ∃ t', kind = .value t' := by
      rcases hcr l hl (by unfold Crosses; have := (hNmem l.dst).2 (.inr hd); tauto) with ⟨t', h1⟩ | ⟨_, t', h1⟩
      · rw [k1] at h1; cases h1; exact ⟨t', rfl⟩
      · rw [k1] at h1; cases h1
        obtain ⟨_, ⟨b, sg', h2, _, h3⟩, _⟩ := hmemu _ hd
        rw [h2, PackAt.in_kind, h3] at k2
        match hq : l.dstPort, k2 with
        | 0, k2 => cases k2
        | 1, k2 => cases k2
        | (x + 2), k2 => cases k2
    obtain ⟨t', rfl⟩ := hval
    obtain ⟨_, ⟨b, sg', h2, _, h3⟩, _⟩ := hmemu _ hd
    rw [h2, PackAt.in_kind, h3] at k2
    have hq : l.dstPort = 0 := by
      match hq : l.dstPort, k2 with
      | 0, _ => rfl
      | 1, k2 => cases k2
      | (x + 2), k2 => cases k2
    exact hs ((hNmem _).2 (.inl (honly _ hd l hl rfl hq).1))
  have hback : ∀ l ∈ h.links, l.dst = n → l.src ∉ N := by
    intro l hl hd hs
    have e : RegionEdge h p l.src n := ⟨(ht.child_iff _ _).2 (hNp _ hs), (ht.child_iff _ _).2 hn, l, hl, rfl, hd⟩
    rcases (hNmem _).1 hs with h1 | h1
    · rw [h1] at e; exact hacyc n (.single e)
    · have e' : RegionEdge h p n l.src := ⟨(ht.child_iff _ _).2 hn, (ht.child_iff _ _).2 (hNp _ hs), _, (hmemu _ h1).2.2.1, rfl, rfl⟩
      exact hacyc n (.head e' (.single e))
  have henter : ∀ l ∈ h.links, l.dst = n → l.dstPort < k := by
    intro l hl hd
    have hs := hback l hl hd
    obtain ⟨kind, k1, k2, _⟩ := hv.kinds l hl
    rw [hd, hop, PackAt.in_kind] at k2
    by_contra hlt
    rw [List.getElem?_append_right (by simpa using hlt)] at k2
    have : kind = .stateOrder := by
      cases hx : l.dstPort - (sg.input.map Kind.value).length with
      | zero => rw [hx] at k2; simpa using k2.symm
      | succ y => rw [hx] at k2; cases k2
    subst this
    rcases hcr l hl (by unfold Crosses; have := (hNmem l.dst).2 (.inl hd); tauto) with ⟨t', h1⟩ | ⟨_, t', h1⟩
    · rw [k1] at h1; cases h1
    · rw [k1] at h1; cases h1
  have hinputs : s.inputs = (List.range k).map fun q => [(n, q)] := by
    have hcross : crossIn h N = (List.range k).map fun q => (n, q) := by
      have hmemc : ∀ np, np ∈ nodeInputs h N → (((!(linkedNodes h ⟨np.1, .incoming, np.2⟩).isEmpty) = true ∧ linkedOutside h N ⟨np.1, .incoming, np.2⟩ = true) ↔
          np ∈ crossIn h N) := by
        intro np hnp
        unfold crossIn linkedIn
        rw [List.mem_filter, List.mem_filter]
        tauto
      unfold crossIn linkedIn
      rw [List.filter_filter]
      unfold nodeInputs
      rw [hNdef, List.flatMap_append, List.filter_append, List.flatMap_singleton]
      have e1 : (us.flatMap fun m => (List.range (h.ins m)).map fun q => (m, q)).filter
          (fun np => linkedOutside h N ⟨np.1, .incoming, np.2⟩ && !(linkedNodes h ⟨np.1, .incoming, np.2⟩).isEmpty) = [] := by
        rw [List.filter_eq_nil_iff]
        intro np hnp hc
        obtain ⟨u, hmem, hq⟩ := List.mem_flatMap.1 hnp
        obtain ⟨q, _, rfl⟩ := List.mem_map.1 hq
        rw [Bool.and_eq_true, outside_in] at hc
        obtain ⟨⟨l, hl, h1, h2, h3⟩, _⟩ := hc
        exact h3 (hfed l hl (by rw [h1]; exact hmem))
      rw [← hNdef, e1, List.nil_append, List.filter_map]
      congr 1
      have hins : h.ins n = k + 1 := by rw [(hv.ports n hlive).1, hop]; simp [Op.ports, hk]
      refine filter_range_eq (by rw [hins]; omega) ?_ ?_
      · intro q _ hc
        simp only [Function.comp, Bool.and_eq_true, outside_in] at hc
        obtain ⟨⟨l, hl, h1, h2, h3⟩, _⟩ := hc
        rw [← h2]; exact henter l hl h1
      · intro q hq
        have hkq : ((h.ops n).ports .incoming)[q]? = some (.value (sg.input[q]'hq)) := by
          rw [hop, PackAt.in_kind, List.getElem?_append_left (by simpa using hq), List.getElem?_map, List.getElem?_eq_getElem hq]; rfl
        obtain ⟨x, y, _, he⟩ := one_link hv hlive hkq
        have hl : (⟨x, y, n, q⟩ : Link) ∈ h.links := (he x y).2 ⟨rfl, rfl⟩
        have := (hmemc (n, q) (mem_nodeInputs.2 ⟨(hNmem n).2 (.inl rfl), by simp only []; rw [hins]; omega⟩)).2
          ((mem_crossIn ht hv).2 ⟨(hNmem n).2 (.inl rfl), _, hl, rfl, rfl, hback _ hl rfl⟩)
        simp only [Function.comp, Bool.and_eq_true]
        exact ⟨this.2, this.1⟩
    rw [b3, b4, hcross, List.map_map]
    rw [List.filter_eq_self.2]
    · rfl
    · intro part hpart
      obtain ⟨q, _, rfl⟩ := List.mem_map.1 hpart
      simp only [Function.comp, isCallPart, isFunctionPort]
      rw [hop]; simp [Op.staticInput]
  have hleave : ∀ l ∈ h.links, l.src ∈ N → l.dst ∉ N → ∃ t', srcKind h l = some (.value t') := by
    intro l hl h1 h2
    rcases hcr l hl (by unfold Crosses; tauto) with h3 | ⟨h3, _⟩
    · exact h3
    · exact absurd h3 h2
  have hvalport : ∀ {m q : Nat} {t' : Types.Ty} {e nm b sg'}, h.ops m = .extensionOp e nm b sg' →
      ((h.ops m).ports .outgoing)[q]? = some (.value t') → q < sg'.output.length := by
    intro m q t' e nm b sg' h1 h2
    rw [h1, PackAt.out_kind] at h2
    by_contra hlt
    rw [List.getElem?_append_right (by simpa using hlt)] at h2
    cases hx : q - (sg'.output.map Kind.value).length with
    | zero => rw [hx] at h2; cases h2
    | succ y => rw [hx] at h2; cases h2
  -- how many outputs there are
  set others := (tupleUses h n).length - us.length with hoth
  have zr := untupleBody_spec hbody
  have hVr : Valid C r := (C47_validate_iff_partial C r zr.tree zr.linksOk).1 hval
  have hwl := zr.wires_length goodWires hVr
  obtain ⟨⟨g1, _⟩, g2, _⟩ := signature_parts hsig
  have hsk : sig.input.length = k := by rw [← g1, hinputs]; simp
  have hcyc : (cycledWires sig (k * us.length)).length = k * us.length := by rw [← hsk]; exact cycled_length
  rw [List.length_append, hcyc, List.length_replicate, ← g2, b2] at hwl
  have hbo : boundaryOutputs h N = (us.flatMap fun u => ((List.range (h.outs u)).filter fun q => linkedOutside h N ⟨u, .outgoing, q⟩).map fun q => (u, q)) ++
      ((List.range (h.outs n)).filter fun q => linkedOutside h N ⟨n, .outgoing, q⟩).map fun q => (n, q) := by
    unfold boundaryOutputs nodeOutputs
    rw [hNdef, List.flatMap_append, List.filter_append, List.flatMap_singleton, List.filter_flatMap, List.filter_map]
    congr 1
    refine List.flatMap_congr fun u _ => ?_
    rw [List.filter_map]; rfl
  have hsubA : (us.flatMap fun u => ((List.range (h.outs u)).filter fun q => linkedOutside h N ⟨u, .outgoing, q⟩).map fun q => (u, q)).Sublist
      (unpacked us k) := by
    refine flatMap_sublist fun u hmem => List.Sublist.map _ (filter_range_sublist _ fun q _ hc => ?_)
    obtain ⟨l, hl, h1, h2, h3⟩ := outside_out.1 hc
    obtain ⟨t', h4⟩ := hleave l hl (by rw [h1]; exact (hNmem u).2 (.inr hmem)) h3
    obtain ⟨_, ⟨b, sg', h5, h6, _⟩, _⟩ := hmemu u hmem
    unfold srcKind at h4
    rw [h1, h2] at h4
    have := hvalport h5 h4
    rw [h6] at this; exact this
  have hsubB : ((List.range (h.outs n)).filter fun q => linkedOutside h N ⟨n, .outgoing, q⟩).Sublist [0] := by
    refine filter_range_sublist (k := 1) _ fun q _ hc => ?_
    obtain ⟨l, hl, h1, h2, h3⟩ := outside_out.1 hc
    obtain ⟨t', h4⟩ := hleave l hl (by rw [h1]; exact (hNmem n).2 (.inl rfl)) h3
    unfold srcKind at h4
    rw [h1, h2] at h4
    have := hvalport hop h4
    rw [hout] at this; exact this
  have hB : ((List.range (h.outs n)).filter fun q => linkedOutside h N ⟨n, .outgoing, q⟩) = [] ∨
      (((List.range (h.outs n)).filter fun q => linkedOutside h N ⟨n, .outgoing, q⟩) = [0] ∧ 1 ≤ others ∧
        ∃ l ∈ h.links, l.src = n ∧ l.srcPort = 0 ∧ l.dst ∉ N) := by
    rcases List.sublist_singleton.1 hsubB with h1 | h1
    · exact .inl h1
    · right
      have hmem : 0 ∈ (List.range (h.outs n)).filter fun q => linkedOutside h N ⟨n, .outgoing, q⟩ := by rw [h1]; simp
      obtain ⟨l, hl, h2, h3, h4⟩ := outside_out.1 (List.mem_filter.1 hmem).2
      refine ⟨h1, ?_, l, hl, h2, h3, h4⟩
      have huse : l.dst ∈ tupleUses h n := mem_tupleUses.2 ⟨l.dstPort, by rw [← h2, ← h3]; exact hl⟩
      have hnot : l.dst ∉ us := fun e => h4 ((hNmem _).2 (.inr e))
      have : us.length < (tupleUses h n).length := by
        rw [hus]
        unfold unpackNodes
        refine List.length_filter_lt_length_iff_exists.2 ⟨l.dst, huse, fun hc => hnot ?_⟩
        rw [hus]
        exact List.mem_filter.2 ⟨huse, hc⟩
      omega
  have hAlen := hsubA.length_le
  rw [unpacked_length] at hAlen
  rw [hbo, List.length_append] at hwl
  have hfull : (us.flatMap fun u => ((List.range (h.outs u)).filter fun q => linkedOutside h N ⟨u, .outgoing, q⟩).map fun q => (u, q)) =
      unpacked us k ∧ ((List.range (h.outs n)).filter fun q => linkedOutside h N ⟨n, .outgoing, q⟩).length = others := by
    rcases hB with h1 | ⟨h1, h2, _⟩
    · rw [h1] at hwl ⊢
      simp only [List.map_nil, List.length_nil, Nat.add_zero] at hwl ⊢
      refine ⟨hsubA.eq_of_length_le ?_, by omega⟩
      rw [unpacked_length]; omega
    · rw [h1] at hwl ⊢
      simp only [List.map_cons, List.map_nil, List.length_cons, List.length_nil, Nat.zero_add] at hwl ⊢
      refine ⟨hsubA.eq_of_length_le ?_, by omega⟩
      rw [unpacked_length]; omega
  have houts : s.outputs = unpacked us k ++ List.replicate others (n, 0) ∧ others ≤ 1 := by
    rw [b2, hbo, hfull.1]
    rcases hB with h1 | ⟨h1, _⟩
    · have := hfull.2
      rw [h1] at this ⊢
      simp only [List.length_nil] at this
      rw [← this]
      exact ⟨rfl, by omega⟩
    · have := hfull.2
      rw [h1] at this ⊢
      simp only [List.length_cons, List.length_nil, Nat.zero_add] at this
      rw [← this]
      exact ⟨rfl, by omega⟩
  have hws : cycledWires sig (k * us.length) ++ List.replicate others (7, 0) = s.outputs.map (PackAt.asWire n) := by
    rw [houts.1, List.map_append, ← hsk, cycled_eq us fun e => hune n e rfl, List.map_replicate]
    simp [PackAt.asWire]
  have hmemout : ∀ w ∈ s.outputs, (w.1 ∈ us ∧ w.2 < k) ∨ (w = (n, 0) ∧ decide (others ≠ 0) = true) := by
    intro w hw
    rw [houts.1, List.mem_append] at hw
    rcases hw with hw | hw
    · obtain ⟨u, hmem, hw⟩ := List.mem_flatMap.1 hw
      obtain ⟨q, hlt, rfl⟩ := List.mem_map.1 hw
      exact .inl ⟨hmem, List.mem_range.1 hlt⟩
    · obtain ⟨h1, h2⟩ := List.mem_replicate.1 hw
      exact .inr ⟨h2, by simpa using h1⟩
  have zp : PackAt h p n k t us (decide (others ≠ 0)) s := by
    refine ⟨hp, fun m => by rw [m1, hNmem], m2, hinputs, m4, hmemout, fun m hmem => hNp m ((m1 m).1 hmem), ⟨a, sg, hop, rfl, hout⟩,
      fun u hmem => ?_, fun l hl hd => ⟨(m1 _).2 (hfed l hl hd), fun h0 => honly _ hd l hl rfl h0⟩, fun u hmem => (hmemu u hmem).2.2.1,
      fun l hl hd _ => henter l hl hd, fun l hl h1 h2 => ?_, fun ho hne => ?_⟩
    · obtain ⟨_, ⟨b, sg', h1, h2, h3⟩, _⟩ := hmemu u hmem
      exact ⟨b, sg', h1, by rw [h2], h3⟩
    · have h1' := (m1 _).1 h1
      have h2' : l.dst ∉ N := fun e => h2 ((m1 _).2 e)
      obtain ⟨t', h3⟩ := hleave l hl h1' h2'
      exact ⟨m3.leaves l hl h1 h2, stays_inside ht hv hp hu (fun m hmem => ⟨hNp m hmem, hNleaf m hmem⟩) hcr hl h1' h2' h3⟩
    · have ho : others ≠ 0 := by simpa using ho
      rcases hB with h1 | ⟨_, _, l, hl, h1, h2, h3⟩
      · have := hfull.2
        rw [h1] at this
        exact absurd this.symm ho
      · obtain ⟨u, us', hcons⟩ := List.exists_cons_of_ne_nil hne
        have hmem : u ∈ us := by rw [hcons]; simp
        have hd := hv.outDegree n 0 _ hlive hkind0
        simp only [OutDegreeOk] at hd
        refine hd.resolve_right fun hlen => ?_
        obtain ⟨y, hy⟩ := List.length_eq_one_iff.1 hlen
        have w1 : l ∈ linksFrom h n 0 := by simp [linksFrom, hl, h1, h2]
        have w2 : (⟨n, 0, u, 0⟩ : Link) ∈ linksFrom h n 0 := by simp [linksFrom, (hmemu u hmem).2.2.1]
        rw [hy, List.mem_singleton] at w1 w2
        rw [← w2] at w1
        rw [w1] at h3
        exact h3 ((hNmem _).2 (.inr hmem))
  refine ⟨⟨k, t, us, decide (others ≠ 0), sig, sg.input, decide (others ≠ 0), zp, ?_, ?_, g2, hsk, rfl, hVr, htry⟩, fun m => by rw [m1, hNmem]⟩
  · rw [← hws]; exact zr
  · rw [← hws]; exact goodWires

end Verif.Patch
