import Verif.Patch.UntupleBody

/-!
# What the replacement of `UntuplePass` does
-/
namespace Verif.Patch

open Verif.Graph Verif.Ops Verif.Passes Verif.Validate Verif.Dataflow Relation

variable {Meta W E : Type} {C : Validate.Context} {r : Hugr Ops.Op Meta} {sig : Types.Signature} {types : List Types.Ty}
  {packs : Bool} {ws : List (Nat × Nat)}

/-- The wires come from the inputs and from the tuple. -/
def GoodWires (sig : Types.Signature) (packs : Bool) (ws : List (Nat × Nat)) : Prop :=
  ∀ w ∈ ws, (w.1 = 5 ∧ w.2 < sig.input.length) ∨ (w = (7, 0) ∧ packs = true)

theorem goodWires {unpacked others : Nat} :
    GoodWires sig (decide (others ≠ 0)) (cycledWires sig unpacked ++ List.replicate others (7, 0)) := by
  intro w hw
  rcases List.mem_append.1 hw with hw | hw
  · unfold cycledWires at hw
    split at hw
    · cases hw
    · rename_i hne
      obtain ⟨j, _, rfl⟩ := List.mem_map.1 hw
      exact .inl ⟨rfl, Nat.mod_lt _ (List.length_pos_iff.2 hne)⟩
  · obtain ⟨h1, h2⟩ := List.mem_replicate.1 hw
    exact .inr ⟨h2, by simpa using h1⟩

namespace IsBody

theorem child_iff (z : IsBody r sig types packs ws) {n : Nat} :
    r.hier.parent n = some 4 ↔ n = 5 ∨ n = 6 ∨ (n = 7 ∧ packs = true) := by
  rw [← z.tree.child_iff]
  change n ∈ r.children 4 ↔ _
  rw [z.children]
  cases packs <;> simp

theorem inside_iff (z : IsBody r sig types packs ws) {n : Nat} :
    Inside r 4 n ↔ n = 5 ∨ n = 6 ∨ (n = 7 ∧ packs = true) := by
  constructor
  · rintro ⟨q, h1, h2⟩
    have key : ∀ n a b, Above r.hier.parent a b → r.hier.parent n = some a → b = 4 → a = 4 := by
      intro n a b hab hn hb
      induction hab generalizing n with
      | refl => exact hb
      | @step a q b h3 _ ih =>
        have h4 := ih _ h3 hb
        subst h4
        rcases z.child_iff.1 h3 with rfl | rfl | ⟨rfl, _⟩
        · have : n ∈ r.children 5 := (z.tree.child_iff _ _).2 hn
          rw [z.leaf.1] at this; cases this
        · have : n ∈ r.children 6 := (z.tree.child_iff _ _).2 hn
          rw [z.leaf.2.1] at this; cases this
        · have : n ∈ r.children 7 := (z.tree.child_iff _ _).2 hn
          rw [z.leaf.2.2] at this; cases this
    have := key n q 4 h2 h1 rfl
    subst this
    exact z.child_iff.1 h1
  · exact fun hn => .child (z.child_iff.2 hn)

theorem link_cases (z : IsBody r sig types packs ws) (hg : GoodWires sig packs ws) {l : Link} (hl : l ∈ r.links) :
    (l.src ≤ 4 ∧ l.dst ≤ 4) ∨ (packs = true ∧ ∃ k < sig.input.length, l = ⟨5, k, 7, k⟩) ∨
    (∃ (j p : Nat), ws[j]? = some (5, p) ∧ p < sig.input.length ∧ l = ⟨5, p, 6, j⟩) ∨
    (packs = true ∧ ∃ j : Nat, ws[j]? = some (7, 0) ∧ l = ⟨7, 0, 6, j⟩) := by
  rcases (z.links l).1 hl with h1 | h1 | ⟨j, n, p, h1, rfl⟩
  · exact .inl ⟨h1.1, h1.2.1⟩
  · exact .inr (.inl h1)
  · rcases hg _ (List.mem_of_getElem? h1) with ⟨h2, h3⟩ | ⟨h2, h3⟩
    · simp only [] at h2 h3
      subst h2
      exact .inr (.inr (.inl ⟨j, p, h1, h3, rfl⟩))
    · cases h2
      exact .inr (.inr (.inr ⟨h3, j, h1, rfl⟩))

theorem hasBody (z : IsBody r sig types packs ws) (hg : GoodWires sig packs ws) : HasBody r 5 6 := by
  refine ⟨by rw [z.entry, z.dfg]; rfl, ?_, fun l hl => ?_⟩
  · rw [z.entry, z.children]; cases packs <;> rfl
  · rw [z.entry, z.inside_iff, z.inside_iff]
    rcases z.link_cases hg hl with ⟨h1, h2⟩ | ⟨h1, k, _, rfl⟩ | ⟨j, p, _, _, rfl⟩ | ⟨h1, j, _, rfl⟩
    · constructor <;> intro h3 <;> omega
    · simp [h1]
    · simp
    · simp [h1]

theorem unordered (z : IsBody r sig types packs ws) (hg : GoodWires sig packs ws) : Unordered r 5 6 := by
  intro l hl hk
  have h5 : ∀ p < sig.input.length, ((r.ops 5).ports .outgoing)[p]? ≠ some .stateOrder := by
    intro p hp
    rw [z.inp]
    simp only [Op.ports]
    rw [List.getElem?_append_left (by simpa using hp), List.getElem?_map, List.getElem?_eq_getElem hp]
    nofun
  rcases z.link_cases hg hl with ⟨h1, h2⟩ | ⟨h1, k, h2, rfl⟩ | ⟨j, p, _, h2, rfl⟩ | ⟨h1, j, _, rfl⟩
  · constructor <;> omega
  · exact absurd hk (h5 _ h2)
  · exact absurd hk (h5 _ h2)
  · unfold srcKind at hk
    simp only [] at hk
    rw [z.pack h1] at hk
    cases hk

theorem fresh_iff (z : IsBody r sig types packs ws) {x : Nat} : Fresh r 5 6 x ↔ x = 7 ∧ packs = true := by
  unfold Fresh
  rw [z.entry, z.inside_iff]
  constructor
  · rintro ⟨h1, h2, h3⟩
    rcases h1 with h1 | h1 | h1
    · exact absurd h1 h2
    · exact absurd h1 h3
    · exact h1
  · rintro ⟨rfl, h1⟩
    exact ⟨.inr (.inr ⟨rfl, h1⟩), by decide, by decide⟩

theorem decls (z : IsBody r sig types packs ws) : DeclsAt r 5 [] :=
  .inherited (z.child_iff.2 (.inl rfl)) (by rw [z.dfg]; nofun) (.inside z.main.1 z.main.2)

/-- A valid replacement has a wire for each output. -/
theorem wires_length (z : IsBody r sig types packs ws) (hg : GoodWires sig packs ws) (hv : Valid C r) :
    ws.length = sig.output.length := by
  have hlive : r.live 6 = true := (z.tree.parent_live _ _ (z.child_iff.2 (.inr (.inl rfl)))).1
  have to6 : ∀ l ∈ r.links, l.dst = 6 → ∃ n p, ws[l.dstPort]? = some (n, p) ∧ l.src = n ∧ l.srcPort = p := by
    intro l hl hd
    rcases (z.links l).1 hl with ⟨_, h2, _⟩ | ⟨_, k, _, rfl⟩ | ⟨j, n, p, h1, rfl⟩
    · omega
    · cases hd
    · exact ⟨n, p, h1, rfl, rfl⟩
  apply Nat.le_antisymm
  · by_contra hlt
    have hlt : sig.output.length < ws.length := by omega
    obtain ⟨w, hw⟩ : ∃ w, ws[sig.output.length]? = some w := ⟨_, List.getElem?_eq_getElem hlt⟩
    have hl : (⟨w.1, w.2, 6, sig.output.length⟩ : Link) ∈ r.links := (z.links _).2 (.inr (.inr ⟨_, w.1, w.2, hw, rfl⟩))
    obtain ⟨kind, k1, k2, _⟩ := hv.kinds _ hl
    simp only [] at k1 k2
    rw [z.out] at k2
    simp only [Op.ports] at k2
    rw [List.getElem?_append_right (by simp)] at k2
    simp only [List.length_map, Nat.sub_self, List.getElem?_cons_zero, Option.some.injEq] at k2
    subst k2
    exact (z.unordered hg _ hl k1).2 rfl
  · by_contra hlt
    have hlt : ws.length < sig.output.length := by omega
    have hk : ((r.ops 6).ports .incoming)[ws.length]? = some (.value sig.output[ws.length]) := by
      rw [z.out]
      simp only [Op.ports]
      rw [List.getElem?_append_left (by simpa using hlt), List.getElem?_map, List.getElem?_eq_getElem hlt]
      rfl
    have hd := hv.inDegree 6 ws.length _ hlive hk
    simp only [InDegreeOk] at hd
    obtain ⟨l, hl⟩ := List.length_eq_one_iff.1 hd
    have hm : l ∈ linksTo r 6 ws.length := by rw [hl]; simp
    unfold linksTo at hm
    obtain ⟨h1, h2⟩ := List.mem_filter.1 hm
    simp only [Bool.and_eq_true, decide_eq_true_eq] at h2
    obtain ⟨n, p, h3, _⟩ := to6 l h1 h2.1
    rw [h2.2, List.getElem?_eq_none (Nat.le_refl _)] at h3
    cases h3

/-- The value on a wire, given the inputs. -/
def wireVal (ins : List (Val W)) (w : Nat × Nat) : Option (Val W) := if w.1 = 5 then ins[w.2]? else some (.sum 0 ins)

/-- What the node that makes a tuple does. -/
theorem runs_makeTuple {h : Hugr Ops.Op Meta} {S : Sem W E} {ρ : Wires W} {n : Nat} {targs : List Types.Term} {sg : Types.Signature}
    {ins outs : List (Val W)} (hop : h.ops n = .extensionOp "prelude" "MakeTuple" targs sg) :
    Runs h S (.node ρ n ins outs) ↔ outs = [.sum 0 ins] := by
  constructor
  · intro hr
    cases hr with
    | leaf hl =>
      cases hl with
      | tag h1 => rw [hop] at h1; cases h1
      | external hc => cases hc with
        | direct h1 => rw [hop] at h1; cases h1
        | indirect h1 => rw [hop] at h1; cases h1
      | makeTuple h1 => rfl
      | unpackTuple h1 => rw [hop] at h1; simp at h1
      | loadConstant h1 => rw [hop] at h1; cases h1
      | loadFunction h1 => rw [hop] at h1; cases h1
      | ext h1 h2 => rw [hop] at h1; cases h1; exact absurd ⟨rfl, .inl rfl⟩ h2
      | unknown h1 => rw [hop] at h1; cases h1
    | const h1 => rw [hop] at h1; cases h1
    | dfg h1 => rw [hop] at h1; cases h1
    | cond h1 => rw [hop] at h1; cases h1
    | tailLoop h1 => rw [hop] at h1; cases h1
    | cfg h1 => rw [hop] at h1; cases h1
    | call hc => cases hc with
      | direct h1 => rw [hop] at h1; cases h1
      | indirect h1 => rw [hop] at h1; cases h1
  · rintro rfl
    exact .leaf (.makeTuple hop)

/-- What a node that unpacks a tuple does. -/
theorem runs_unpackTuple {h : Hugr Ops.Op Meta} {S : Sem W E} {ρ : Wires W} {n : Nat} {targs : List Types.Term} {sg : Types.Signature}
    {ins outs : List (Val W)} (hop : h.ops n = .extensionOp "prelude" "UnpackTuple" targs sg) :
    Runs h S (.node ρ n ins outs) ↔ ins = [.sum 0 outs] ∧ outs.length = sg.output.length := by
  constructor
  · intro hr
    cases hr with
    | leaf hl =>
      cases hl with
      | tag h1 => rw [hop] at h1; cases h1
      | external hc => cases hc with
        | direct h1 => rw [hop] at h1; cases h1
        | indirect h1 => rw [hop] at h1; cases h1
      | makeTuple h1 => rw [hop] at h1; simp at h1
      | unpackTuple h1 h2 => rw [hop] at h1; cases h1; exact ⟨rfl, h2⟩
      | loadConstant h1 => rw [hop] at h1; cases h1
      | loadFunction h1 => rw [hop] at h1; cases h1
      | ext h1 h2 => rw [hop] at h1; cases h1; exact absurd ⟨rfl, .inr rfl⟩ h2
      | unknown h1 => rw [hop] at h1; cases h1
    | const h1 => rw [hop] at h1; cases h1
    | dfg h1 => rw [hop] at h1; cases h1
    | cond h1 => rw [hop] at h1; cases h1
    | tailLoop h1 => rw [hop] at h1; cases h1
    | cfg h1 => rw [hop] at h1; cases h1
    | call hc => cases hc with
      | direct h1 => rw [hop] at h1; cases h1
      | indirect h1 => rw [hop] at h1; cases h1
  · rintro ⟨rfl, h1⟩
    exact .leaf (.unpackTuple hop h1)

theorem numOuts_input {ts : List Types.Ty} : numOuts (.input ts) = ts.length := by
  simp [numOuts, Op.ports, List.filter_append, List.filter_map, Kind.isValue, Function.comp_def]

theorem numIns_output {ts : List Types.Ty} : numIns (.output ts) = ts.length := by
  simp [numIns, Op.ports, List.filter_append, List.filter_map, Kind.isValue, Function.comp_def]

theorem numIns_ext {e nm : String} {a : List Types.Term} {sg : Types.Signature} : numIns (.extensionOp e nm a sg) = sg.input.length := by
  simp [numIns, Op.ports, List.filter_append, List.filter_map, Kind.isValue, Function.comp_def]

theorem numOuts_ext {e nm : String} {a : List Types.Term} {sg : Types.Signature} : numOuts (.extensionOp e nm a sg) = sg.output.length := by
  simp [numOuts, Op.ports, List.filter_append, List.filter_map, Kind.isValue, Function.comp_def]

/-- The replacement gives, on each output, what its wire carries. -/
theorem means_iff (z : IsBody r sig types packs ws) (hg : GoodWires sig packs ws) (hl : ws.length = sig.output.length)
    (hty : types.length = sig.input.length) (S : Sem W E) (R : Answers W) (ins outs : List (Val W)) :
    BodyMeans r S R ins outs ↔ ins.length = sig.input.length ∧ outs.length = ws.length ∧
      ∀ (j : Nat) w, ws[j]? = some w → outs[j]? = wireVal ins w := by
  have b4 : (bodiless r).children 4 = if packs then [5, 6, 7] else [5, 6] := z.children
  have b5 : (bodiless r).ops 5 = .input sig.input := by simp [bodiless, z.inp]
  have b6 : (bodiless r).ops 6 = .output sig.output := by simp [bodiless, z.out]
  have b7 : packs = true → (bodiless r).ops 7 = makeTupleOp types := fun hp => by simp [bodiless, z.pack hp, makeTupleOp]
  have hio : HasIO (bodiless r) 4 5 6 := by
    cases packs with
    | true => exact ⟨[7], b4⟩
    | false => exact ⟨[], b4⟩
  have hinner : ∀ n, Inner (bodiless r) 4 5 6 n ↔ n = 7 ∧ packs = true := by
    intro n
    unfold Inner
    rw [b4]
    cases packs with
    | true =>
      simp only [if_true, List.mem_cons, List.not_mem_nil, or_false]
      constructor
      · rintro ⟨h1 | h1 | h1, h2, h3⟩
        · exact absurd h1 h2
        · exact absurd h1 h3
        · exact ⟨h1, trivial⟩
      · rintro ⟨rfl, _⟩; exact ⟨.inr (.inr rfl), by decide, by decide⟩
    | false =>
      simp only [Bool.false_eq_true, if_false, List.mem_cons, List.not_mem_nil, or_false]
      constructor
      · rintro ⟨h1 | h1, h2, h3⟩
        · exact absurd h1 h2
        · exact absurd h1 h3
      · rintro ⟨_, h⟩; cases h
  have in7 : ∀ l ∈ r.links, l.dst = 7 → l.src = 5 ∧ l.srcPort = l.dstPort := by
    intro l hl hd
    rcases z.link_cases hg hl with ⟨_, h2⟩ | ⟨_, k, _, rfl⟩ | ⟨j, p, _, _, rfl⟩ | ⟨_, j, _, rfl⟩
    · omega
    · exact ⟨rfl, rfl⟩
    · cases hd
    · cases hd
  have in6 : ∀ l ∈ r.links, l.dst = 6 → ws[l.dstPort]? = some (l.src, l.srcPort) := by
    intro l hl hd
    rcases (z.links l).1 hl with ⟨_, h2, _⟩ | ⟨_, k, _, rfl⟩ | ⟨j, n, p, h1, rfl⟩
    · omega
    · cases hd
    · exact h1
  unfold BodyMeans
  rw [z.entry]
  constructor
  · rintro ⟨σ, hr⟩
    cases hr with
    | @graph _ _ _ i' o' _ _ insf outsf q1 q2 q3 q4 q5 q6 q7 q8 q9 q10 =>
      obtain ⟨rfl, rfl⟩ := hasIO_fun q1 hio
      rw [b5, numOuts_input] at q4
      have hlen : outs.length = ws.length := by rw [q10.1, b6, numIns_output, hl]
      refine ⟨q4, hlen, fun j w hw => ?_⟩
      have hj : j < outs.length := by rw [hlen]; exact (List.getElem?_eq_some_iff.1 hw).1
      obtain ⟨l, m1, m2, m3, m4⟩ := q10.2 j _ (List.getElem?_eq_getElem hj)
      have h1 := in6 l m1 m2
      rw [m3, hw] at h1
      cases h1
      rw [List.getElem?_eq_getElem hj, ← m4]
      rcases hg _ (List.mem_of_getElem? hw) with ⟨h2, _⟩ | ⟨h2, h3⟩
      · simp only [] at h2
        unfold wireVal
        rw [if_pos h2, h2, q3]; rfl
      · obtain ⟨h4, h5⟩ := Prod.mk.inj h2
        have hn := (hinner 7).2 ⟨rfl, h3⟩
        have e1 := (runs_makeTuple (b7 h3)).1 (q9 7 hn)
        have e2 : insf 7 = ins := by
          have c1 := q6 7 hn
          have hcl : (insf 7).length = ins.length := by
            rw [c1.1, b7 h3, makeTupleOp, numIns_ext, q4]; exact hty
          refine List.ext_getElem? fun k => ?_
          by_cases hlt : k < (insf 7).length
          · obtain ⟨l', n1, n2, n3, n4⟩ := c1.2 k _ (List.getElem?_eq_getElem hlt)
            obtain ⟨n5, n6⟩ := in7 l' n1 n2
            rw [n5, q3, n6, n3] at n4
            rw [List.getElem?_eq_getElem hlt, ← n4]; rfl
          · rw [List.getElem?_eq_none (by omega), List.getElem?_eq_none (by omega)]
        rw [h4, h5, q7 7 hn, e1, e2]
        unfold wireVal
        rw [if_neg (by simp [h4])]; rfl
  · rintro ⟨h1, h2, h3⟩
    refine ⟨fun n => if n = 5 then outWires ins else if n = 6 then outWires [] else
      if n = 7 ∧ packs = true then outWires [.sum 0 ins] else noWires n, .graph (ins := fun _ => ins) (outs := fun _ => [.sum 0 ins])
        hio ?_ rfl ?_ rfl ?_ ?_ ?_ ?_ ?_⟩
    · intro m hm
      rw [b4] at hm
      cases packs with
      | true =>
        simp only [if_true, List.mem_cons, List.not_mem_nil, or_false, not_or] at hm
        simp only [if_neg hm.1, if_neg hm.2.1]
        rw [if_neg fun e => hm.2.2 e.1]
      | false =>
        simp only [Bool.false_eq_true, if_false, List.mem_cons, List.not_mem_nil, or_false, not_or] at hm
        simp only [if_neg hm.1, if_neg hm.2]
        rw [if_neg fun e => by cases e.2]
    · rw [b5, numOuts_input, h1]
    · intro n hn
      obtain ⟨rfl, hp⟩ := (hinner n).1 hn
      refine ⟨by rw [b7 hp, makeTupleOp, numIns_ext, h1]; exact hty.symm, fun k v hk => ?_⟩
      have hlt := (List.getElem?_eq_some_iff.1 hk).1
      exact ⟨⟨5, k, 7, k⟩, (z.links _).2 (.inr (.inl ⟨hp, k, by rw [← h1]; exact hlt, rfl⟩)), rfl, rfl, hk⟩
    · intro n hn
      obtain ⟨rfl, hp⟩ := (hinner n).1 hn
      simp only [hp]; rfl
    · intro n hn
      obtain ⟨rfl, hp⟩ := (hinner n).1 hn
      rw [b7 hp, makeTupleOp, numOuts_ext]; rfl
    · intro n hn
      obtain ⟨rfl, hp⟩ := (hinner n).1 hn
      exact (runs_makeTuple (b7 hp)).2 rfl
    · refine ⟨by rw [b6, numIns_output, h2, hl], fun j v hj => ?_⟩
      have hlt : j < ws.length := by rw [← h2]; exact (List.getElem?_eq_some_iff.1 hj).1
      have hw := List.getElem?_eq_getElem hlt
      refine ⟨⟨ws[j].1, ws[j].2, 6, j⟩, (z.links _).2 (.inr (.inr ⟨j, _, _, hw, rfl⟩)), rfl, rfl, ?_⟩
      have h4 := h3 j _ hw
      rw [hj] at h4
      simp only []
      unfold wireVal at h4
      rcases hg _ (List.mem_of_getElem? hw) with ⟨h5, _⟩ | ⟨h5, h6⟩
      · rw [if_pos h5] at h4
        rw [if_pos h5, h4]; rfl
      · rw [h5] at h4 ⊢
        rw [if_neg (by decide)] at h4
        rw [h4]
        simp only [h6]; rfl

end IsBody

end Verif.Patch
