import Verif.Dataflow.AnalysisSpec
import Verif.Dataflow.ValueProps

/-!
# Lemmas on the dataflow analysis: what a finished evaluation satisfies
-/
namespace Verif.Dataflow

open Verif.Graph Verif.Ops Verif.Passes PV

variable {Meta V E W : Type}

/-! ## Stores -/

theorem Store.get_set {K α : Type} [DecidableEq K] (s : Store K α) (k : K) (v : α) (k' : K) (d : α) :
    (s.set k v).get k' d = if k' = k then v else s.get k' d := by
  induction s with
  | nil =>
    by_cases h : k' = k <;> simp [Store.set, Store.get, List.lookup, h, beq_eq_false_iff_ne.2]
  | cons e s ih =>
    obtain ⟨a, b⟩ := e
    simp only [Store.set]
    by_cases ha : a = k
    · subst ha
      simp only [if_true, Store.get, List.lookup_cons]
      by_cases h : k' = a <;> simp [h, beq_eq_false_iff_ne.2]
    · simp only [ha, if_false]
      have ih' := ih
      simp only [Store.get, List.lookup_cons] at ih' ⊢
      by_cases h : k' = a
      · subst h; simp [ha]
      · simp only [beq_eq_false_iff_ne.2 h]; exact ih'

theorem argsBy_unit (a : Abs V) : ArgsBy (fun _ => ()) a := by
  induction a using induct with
  | hbot => trivial
  | htop => trivial
  | hfunc n x => rfl
  | hval v => trivial
  | hsum rows ih => rw [argsBy_psum_iff]; intro k row hm x hx; exact ih k row hm x hx

/-- Joining without a change means that the value was already covered. -/
theorem le_of_unchanged [AbsVal V] {vle : V → V → Prop} (L : AbsLaws V vle) (a b : Abs V)
    (ha : WF a) (hb : WF b) (h : (join a b).2 = false) : Le vle b a := by
  have h1 : (join a b).1 = a := by
    by_contra hne
    have := (join_flag L a b ha hb).2 hne
    rw [h] at this; exact absurd this (by simp)
  have := le_join_right L (φ := fun _ => ()) a b ha hb (argsBy_unit a) (argsBy_unit b)
  rwa [h1] at this

/-! ## Well-formed states -/

theorem newVariant_wf (tag : Nat) (vs : List (Abs V)) (hv : ∀ x ∈ vs, WF x) :
    WF (newVariant tag vs) := by
  rw [newVariant, wf_psum_iff]
  refine ⟨by simp, by simp [BmSorted], fun k row hm x hx => ?_⟩
  simp only [List.mem_singleton, Prod.mk.injEq] at hm
  obtain ⟨rfl, rfl⟩ := hm
  exact hv x hx

theorem variantValues_wf {a : Abs V} (ha : WF a) {tag len : Nat} {row : List (Abs V)}
    (h : a.variantValues tag len = .some row) : ∀ x ∈ row, WF x := by
  cases a with
  | bottom => simp [variantValues] at h
  | func => simp [variantValues] at h
  | value => simp [variantValues] at h
  | top =>
    simp only [variantValues, Variant.some.injEq] at h
    subst h
    intro x hx
    rw [(List.mem_replicate.1 hx).2]; trivial
  | psum rows =>
    rw [wf_psum_iff] at ha
    simp only [variantValues] at h
    cases hg : bmGet rows tag with
    | none => rw [hg] at h; simp at h
    | some r =>
      rw [hg] at h
      simp only [] at h
      split at h
      · simp only [Variant.some.injEq] at h
        subst h
        exact ha.2.2 tag r (bmGet_mem hg)
      · simp at h

mutual
theorem partialFromConst_wf (load : Nat → List Nat → E → Option V) (n : Nat) (path : List Nat) :
    ∀ c : CVal E, WF (partialFromConst load n path c)
  | .leaf e => by
    simp only [partialFromConst]
    cases load n path e <;> trivial
  | .sum tag vals => by
    simp only [partialFromConst]
    exact newVariant_wf _ _ (partialsFromConst_wf load n path 0 vals)
theorem partialsFromConst_wf (load : Nat → List Nat → E → Option V) (n : Nat) (path : List Nat) :
    ∀ (i : Nat) (cs : List (CVal E)), ∀ x ∈ partialsFromConst load n path i cs, WF x
  | _, [], x, hx => by simp [partialsFromConst] at hx
  | i, c :: cs, x, hx => by
    simp only [partialsFromConst, List.mem_cons] at hx
    rcases hx with rfl | hx
    · exact partialFromConst_wf load n (i :: path) c
    · exact partialsFromConst_wf load n path (i + 1) cs x hx
end

/-- What holds of all abstract values that can be made from those for which it holds. -/
structure Stable [AbsVal V] (Q : Abs V → Prop) : Prop where
  bottom : Q .bottom
  top : Q .top
  func : ∀ n, Q (.func n ())
  join : ∀ a b, Q a → Q b → Q (PV.join a b).1
  newVariant : ∀ tag vs, (∀ x ∈ vs, Q x) → Q (PV.newVariant tag vs)
  variantValues : ∀ a tag len row, Q a → a.variantValues tag len = .some row → ∀ x ∈ row, Q x

theorem stable_wf [AbsVal V] : Stable (V := V) WF :=
  ⟨trivial, trivial, fun _ => trivial, fun a b ha hb => join_wf a b ha hb, newVariant_wf,
    fun _ _ _ _ ha h => variantValues_wf ha h⟩

theorem allLeavesRow_iff {P : V → Prop} (row : List (Abs V)) :
    AllLeavesRow P row ↔ ∀ x ∈ row, AllLeaves P x := by
  induction row with
  | nil => simp [AllLeavesRow]
  | cons x xs ih => simp [AllLeavesRow, ih]

theorem allLeaves_psum_iff {P : V → Prop} (rows : List (Nat × List (Abs V))) :
    AllLeaves P (psum rows) ↔ ∀ k row, (k, row) ∈ rows → ∀ x ∈ row, AllLeaves P x := by
  simp only [AllLeaves]
  induction rows with
  | nil => simp [AllLeavesRows]
  | cons e rows ih =>
    obtain ⟨k, row⟩ := e
    simp only [AllLeavesRows, allLeavesRow_iff, ih, List.mem_cons, Prod.mk.injEq]
    constructor
    · rintro ⟨h1, h2⟩ k' row' (⟨rfl, rfl⟩ | hm)
      · exact h1
      · exact h2 k' row' hm
    · intro h
      exact ⟨h k row (.inl ⟨rfl, rfl⟩), fun k' row' hm => h k' row' (.inr hm)⟩

theorem stable_good [AbsVal V] {P : V → Prop}
    (hj : ∀ a b c x, P a → P b → AbsVal.tryJoin a b = some (c, x) → P c) :
    Stable (V := V) (fun a => WF a ∧ AllLeaves P a) := by
  refine ⟨⟨trivial, trivial⟩, ⟨trivial, trivial⟩, fun _ => ⟨trivial, trivial⟩, fun a b ha hb =>
    ⟨join_wf a b ha.1 hb.1, ?_⟩, fun tag vs hv => ⟨newVariant_wf tag vs fun x hx => (hv x hx).1, ?_⟩,
    fun a tag len row ha h x hx => ⟨variantValues_wf ha.1 h x hx, ?_⟩⟩
  · induction b using PV.induct generalizing a with
    | hbot => simpa [join] using ha.2
    | htop => cases a <;> simp [join, AllLeaves]
    | hval v =>
      cases a with
      | value u =>
        simp only [join]
        split
        · rename_i heq; exact hj _ _ _ _ ha.2 hb.2 heq
        · trivial
      | bottom => exact hb.2
      | _ => simp [join, AllLeaves]
    | hfunc n x =>
      cases a <;> simp only [join, AllLeaves]
      split <;> simp [AllLeaves]
    | hsum s ih =>
      cases a with
      | bottom => simpa [join] using hb.2
      | top => simp [join, AllLeaves]
      | func => simp [join, AllLeaves]
      | value => simp [join, AllLeaves]
      | psum r =>
        obtain ⟨ha, ha'⟩ := ha
        obtain ⟨hb, hb'⟩ := hb
        simp only [join]
        split
        · rename_i hok
          rw [wf_psum_iff] at ha hb
          rw [allLeaves_psum_iff] at *
          intro k row hm z hz
          rcases join_entry ha.2.1 hb.2.1 hok hm with ⟨x, y, hx, hy, _, rfl⟩ | ⟨h, _⟩ | ⟨h, _⟩
          · obtain ⟨x', hx', y', hy', rfl⟩ := mem_zipWith hz
            exact ih k y hy y' hy' x' ⟨ha.2.2 k x hx x' hx', ha' k x hx x' hx'⟩
              ⟨hb.2.2 k y hy y' hy', hb' k y hy y' hy'⟩
          · exact ha' k row h z hz
          · exact hb' k row h z hz
        · simp [AllLeaves]
  · rw [newVariant, allLeaves_psum_iff]
    intro k row hm x hx
    simp only [List.mem_singleton, Prod.mk.injEq] at hm
    obtain ⟨rfl, rfl⟩ := hm
    exact (hv x hx).2
  · obtain ⟨_, ha⟩ := ha
    cases a with
    | bottom => simp [variantValues] at h
    | func => simp [variantValues] at h
    | value => simp [variantValues] at h
    | top =>
      simp only [variantValues, Variant.some.injEq] at h
      subst h
      rw [(List.mem_replicate.1 hx).2]; trivial
    | psum rows =>
      rw [allLeaves_psum_iff] at ha
      simp only [variantValues] at h
      cases hg : bmGet rows tag with
      | none => rw [hg] at h; simp at h
      | some r =>
        rw [hg] at h
        simp only [] at h
        split at h
        · simp only [Variant.some.injEq] at h
          subst h
          exact ha tag r (bmGet_mem hg) x hx
        · simp at h

structure StateAll (Q : Abs V → Prop) (h : Hugr Ops.Op Meta) (s : AState V) : Prop where
  out : ∀ n p, Q (s.outOf n p)
  inn : ∀ n p, Q (s.inOf n p)
  row : ∀ n, ∀ x ∈ s.rowOf h n, Q x
  len : ∀ n, (s.rowOf h n).length = (sigIns (h.ops n)).length

def FactAll (Q : Abs V → Prop) (h : Hugr Ops.Op Meta) : Fact V → Prop
  | .out _ _ v => Q v
  | .inn _ _ v => Q v
  | .row n vs => vs.length = (sigIns (h.ops n)).length ∧ ∀ x ∈ vs, Q x
  | _ => True

abbrev StateWF (h : Hugr Ops.Op Meta) (s : AState V) : Prop := StateAll WF h s
abbrev FactWF (h : Hugr Ops.Op Meta) (f : Fact V) : Prop := FactAll WF h f

variable {Q : Abs V → Prop} [AbsVal V] (hQ : Stable Q)
include hQ

theorem stateAll_init (h : Hugr Ops.Op Meta) : StateAll Q h ({} : AState V) := by
  refine ⟨fun _ _ => ?_, fun _ _ => ?_, fun n x hx => ?_, fun n => ?_⟩
  · simpa [AState.outOf, Store.get] using hQ.bottom
  · simpa [AState.inOf, Store.get] using hQ.bottom
  · simp only [AState.rowOf, Store.get, List.lookup_nil, Option.getD_none, newRow] at hx
    rw [(List.mem_replicate.1 hx).2]; exact hQ.bottom
  · simp [AState.rowOf, Store.get, newRow]

theorem addFact_all {h : Hugr Ops.Op Meta} {s : AState V} (hs : StateAll Q h s) {f : Fact V}
    (hf : FactAll Q h f) : StateAll Q h (addFact h s f).1 := by
  cases f with
  | out n p v =>
    refine ⟨fun m q => ?_, hs.inn, hs.row, hs.len⟩
    simp only [addFact, AState.outOf, Store.get_set]
    split
    · exact hQ.join _ _ (hs.out _ _) hf
    · exact hs.out m q
  | inn n p v =>
    refine ⟨hs.out, fun m q => ?_, hs.row, hs.len⟩
    simp only [addFact, AState.inOf, Store.get_set]
    split
    · exact hQ.join _ _ (hs.inn _ _) hf
    · exact hs.inn m q
  | row n vs =>
    obtain ⟨hl, hv⟩ := hf
    have hl' : (s.rowOf h n).length = vs.length := by rw [hl, hs.len]
    refine ⟨hs.out, hs.inn, fun m x hx => ?_, fun m => ?_⟩
    · simp only [addFact, AState.rowOf, Store.get_set] at hx
      split at hx
      · rw [show (s.row.get n (newRow (sigIns (h.ops n)).length)) = s.rowOf h n from rfl,
          joinRow_fst _ _ hl'] at hx
        obtain ⟨a, ha, b, hb, rfl⟩ := mem_zipWith hx
        exact hQ.join _ _ (hs.row n a ha) (hv b hb)
      · exact hs.row m x hx
    · simp only [addFact, AState.rowOf, Store.get_set]
      split
      · rename_i hm; subst hm
        rw [show (s.row.get m (newRow (sigIns (h.ops m)).length)) = s.rowOf h m from rfl,
          joinRow_fst _ _ hl', List.length_zipWith, hl', hl, Nat.min_self]
      · exact hs.len m
  | case c k =>
    simp only [addFact]; split
    · exact hs
    · exact ⟨hs.out, hs.inn, hs.row, hs.len⟩
  | block c k =>
    simp only [addFact]; split
    · exact hs
    · exact ⟨hs.out, hs.inn, hs.row, hs.len⟩
  | indirect n t => exact ⟨hs.out, hs.inn, hs.row, hs.len⟩
  | panic => exact hs

theorem unpackFirst_all {row vs : List (Abs V)} (hr : ∀ x ∈ row, Q x) {tag len : Nat}
    (h : unpackFirst tag len row = .some vs) : ∀ x ∈ vs, Q x := by
  cases row with
  | nil => simp [unpackFirst] at h
  | cons x rest =>
    simp only [unpackFirst] at h
    cases hv : x.variantValues tag len with
    | panic => rw [hv] at h; simp at h
    | none => rw [hv] at h; simp at h
    | some vals =>
      rw [hv] at h
      simp only [Variant.some.injEq] at h
      subst h
      intro y hy
      rcases List.mem_append.1 hy with hy | hy
      · exact hQ.variantValues _ _ _ _ (hr x (List.mem_cons_self ..)) hv y hy
      · exact hr y (List.mem_cons_of_mem _ hy)

omit hQ [AbsVal V] in
theorem mem_outFacts {n : Nat} {vs : List (Abs V)} {f : Fact V} :
    f ∈ outFacts n vs ↔ ∃ p v, vs[p]? = some v ∧ f = .out n p v := by
  simp only [outFacts, List.mem_map, Prod.exists, List.mem_zipIdx_iff_getElem?]
  constructor
  · rintro ⟨v, p, h, rfl⟩; exact ⟨p, v, h, rfl⟩
  · rintro ⟨p, v, h, rfl⟩; exact ⟨v, p, h, rfl⟩

omit hQ [AbsVal V] in
theorem outFacts_all {h : Hugr Ops.Op Meta} {n : Nat} {vs : List (Abs V)} (hv : ∀ x ∈ vs, Q x) :
    ∀ f ∈ outFacts n vs, FactAll Q h f := by
  intro f hf
  obtain ⟨p, v, hp, rfl⟩ := mem_outFacts.1 hf
  exact hv v (List.mem_of_getElem? hp)

omit hQ [AbsVal V] in
theorem variantFacts_all {h : Hugr Ops.Op Meta} {n : Nat} {r : Variant V Nat Unit}
    (hv : ∀ vs, r = .some vs → ∀ x ∈ vs, Q x) : ∀ f ∈ variantFacts n r, FactAll Q h f := by
  intro f hf
  cases r with
  | panic => simp only [variantFacts, List.mem_singleton] at hf; subst hf; trivial
  | none => simp [variantFacts] at hf
  | some vs => exact outFacts_all (hv vs rfl) f hf

/-- What the context returns. -/
structure ContextAll (Seen : Nat → List (Abs V) → Prop) (Q : Abs V → Prop) (h : Hugr Ops.Op Meta)
    (K : DFContext V E) : Prop where
  interp : ∀ n ins p, Seen n ins → (∀ x ∈ ins, Q x) → Q (K.interp n ins p)
  load : ∀ n t c t', h.ops n = .loadConstant t → singleSource h n 0 = some c → h.ops c = .const t' →
    Q (partialFromConst K.load n [] (K.constant c))

/-- The inputs that extension operations are interpreted with are in `Seen`. -/
def RowsSeen (Seen : Nat → List (Abs V) → Prop) (h : Hugr Ops.Op Meta) (s : AState V) : Prop :=
  ∀ n, IsExt h n → rowContainsBottom (s.rowOf h n) = false → Seen n (s.rowOf h n)

/-- The states of an evaluation, the last one first. -/
inductive Trace (h : Hugr Ops.Op Meta) (K : DFContext V E) (proto : List (Nat × Nat × Abs V)) :
    List (AState V) → List (Fact V) → Prop
  | init : Trace h K proto [{}] []
  | derive {s : AState V} {tr : List (AState V)} {facts : List (Fact V)} {f : Fact V} :
      Trace h K proto (s :: tr) facts → f ∈ derive h K proto s → Trace h K proto (s :: tr) (f :: facts)
  | add {s : AState V} {tr : List (AState V)} {facts : List (Fact V)} {f : Fact V} :
      Trace h K proto (s :: tr) facts → f ∈ facts →
      Trace h K proto ((addFact h s f).1 :: s :: tr) facts

omit hQ in
theorem run_trace {h : Hugr Ops.Op Meta} {K : DFContext V E} {proto : List (Nat × Nat × Abs V)}
    {s : AState V} {facts : List (Fact V)} (hr : Run h K proto s facts) :
    ∃ tr, Trace h K proto (s :: tr) facts := by
  induction hr with
  | init => exact ⟨[], .init⟩
  | derive _ hf ih => obtain ⟨tr, ih⟩ := ih; exact ⟨tr, .derive ih hf⟩
  | add _ hf ih => obtain ⟨tr, ih⟩ := ih; exact ⟨_, .add ih hf⟩

/-- The context returns well-formed values. -/
def ContextWF (K : DFContext V E) : Prop :=
  ∀ n ins p, (∀ x ∈ ins, WF x) → WF (K.interp n ins p)

omit hQ [AbsVal V] in
theorem contextAll_wf {K : DFContext V E} (hK : ContextWF K) (h : Hugr Ops.Op Meta) :
    ContextAll (fun _ _ => True) WF h K := ⟨fun n ins p _ => hK n ins p, fun _ _ _ _ _ _ _ => partialFromConst_wf ..⟩

omit hQ [AbsVal V] in
theorem inVals_all {h : Hugr Ops.Op Meta} {s : AState V} (hs : StateAll Q h s) (n : Nat) :
    ∀ x ∈ inVals h s n, Q x := by
  intro x hx
  simp only [inVals, List.mem_map] at hx
  obtain ⟨p, _, rfl⟩ := hx
  exact hs.inn n p

omit hQ [AbsVal V] in
theorem toInput_all {h : Hugr Ops.Op Meta} {p : Nat} {vs : List (Abs V)} (hv : ∀ x ∈ vs, Q x) :
    ∀ f ∈ toInput h p vs, FactAll Q h f := by
  intro f hf
  simp only [toInput] at hf
  cases hg : getIo h p with
  | none => rw [hg] at hf; simp at hf
  | some io => rw [hg] at hf; exact outFacts_all hv f hf

omit hQ [AbsVal V] in
theorem fromOutput_all {h : Hugr Ops.Op Meta} {s : AState V} (hs : StateAll Q h s) {p n : Nat} :
    ∀ f ∈ fromOutput h s p n, FactAll Q h f := by
  intro f hf
  simp only [fromOutput] at hf
  cases hg : getIo h p with
  | none => rw [hg] at hf; simp at hf
  | some io => rw [hg] at hf; exact outFacts_all (inVals_all hs _) f hf

theorem propagate_all {Seen : Nat → List (Abs V) → Prop} {h : Hugr Ops.Op Meta} {K : DFContext V E}
    (hK : ContextAll Seen Q h K) {n : Nat} (hn : h.live n = true)
    {ins : List (Abs V)} (hi : ∀ x ∈ ins, Q x)
    (hseen : IsExt h n → rowContainsBottom ins = false → Seen n ins) (k : Nat) :
    ∀ vs, propagateLeafOp h K n ins k = .some vs → ∀ x ∈ vs, Q x := by
  intro vs hv
  simp only [propagateLeafOp] at hv
  split at hv
  · simp only [Variant.some.injEq] at hv
    subst hv
    simpa using hQ.newVariant 0 ins hi
  · split at hv
    · unfold unpackTuple at hv
      split at hv
      · rename_i tup
        exact hQ.variantValues _ _ _ _ (hi tup (by simp)) hv
      · simp at hv
    · split at hv
      · simp only [Variant.some.injEq] at hv
        subst hv
        rename_i t _ _
        simpa using hQ.newVariant t ins hi
      · simp at hv
      · simp at hv
      · simp at hv
      · simp at hv
      · simp at hv
      · split at hv
        · unfold loadConstant at hv
          split at hv
          · simp at hv
          · split at hv
            · simp only [Variant.some.injEq] at hv
              subst hv
              simpa using hK.load _ _ _ _ (by assumption) (by assumption) (by assumption)
            · simp at hv
        · simp at hv
      · split at hv
        · unfold loadFunction at hv
          split at hv
          · simp at hv
          · simp only [Variant.some.injEq] at hv
            subst hv
            simpa using hQ.func _
        · simp at hv
      · split at hv
        · simp only [Variant.some.injEq] at hv
          subst hv
          intro x hx
          rw [(List.mem_replicate.1 hx).2]; first | exact hQ.bottom | exact hQ.top
        · simp only [Variant.some.injEq] at hv
          subst hv
          intro x hx
          obtain ⟨p, _, rfl⟩ := List.mem_map.1 hx
          rename_i hop hb _
          exact hK.interp n ins p (hseen ⟨hn, _, _, _, _, hop⟩ (by simpa using hb)) hi
      · simp at hv

theorem passFacts_all {h : Hugr Ops.Op Meta} {s : AState V} (hs : StateAll Q h s) {g o : Nat}
    {rows : List (List Types.Ty)} {succ tag : Nat} :
    ∀ f ∈ passFacts h s g o rows succ tag, FactAll Q h f := by
  intro f hf
  simp only [passFacts, List.mem_flatMap] at hf
  obtain ⟨d, _, hf⟩ := hf
  split at hf
  · exact variantFacts_all (fun vs hv => unpackFirst_all hQ (hs.row _) hv) f hf
  · simp only [List.mem_singleton] at hf; subst hf; trivial

theorem derive_all {Seen : Nat → List (Abs V) → Prop} {h : Hugr Ops.Op Meta} {K : DFContext V E}
    {proto : List (Nat × Nat × Abs V)} {s : AState V} (hK : ContextAll Seen Q h K)
    (hseen : RowsSeen Seen h s) (hp : ∀ e ∈ proto, Q e.2.2) (hs : StateAll Q h s) :
    ∀ f ∈ derive h K proto s, FactAll Q h f := by
  intro f hf
  simp only [derive, List.mem_append, List.mem_flatMap] at hf
  rcases hf with (hf | ⟨n, hn, hf⟩) | ⟨gb, _, hf⟩
  · simp only [protoFacts, List.mem_map, List.mem_filter] at hf
    obtain ⟨e, ⟨he, _⟩, rfl⟩ := hf
    exact hp e he
  · rcases hf with ((((((((hf | hf) | hf) | hf) | hf) | hf) | hf) | hf) | hf)
    · simp only [wireFacts, List.mem_flatMap] at hf
      obtain ⟨p, _, hf⟩ := hf
      split at hf
      · simp only [List.mem_singleton] at hf; subst hf; exact hs.out _ _
      · simp at hf
    · simp only [rowFacts, List.mem_map] at hf
      obtain ⟨p, _, rfl⟩ := hf
      refine ⟨by simp [newRow], fun x hx => ?_⟩
      rcases List.mem_or_eq_of_mem_set hx with hx | hx
      · rw [(List.mem_replicate.1 hx).2]; first | exact hQ.bottom | exact hQ.top
      · subst hx; exact hs.inn n p
    · simp only [leafFacts] at hf
      split at hf
      · exact variantFacts_all (propagate_all hQ hK (List.mem_filter.1 hn).2 (hs.row n) (hseen n) _) f hf
      · simp at hf
    · simp only [dfgFacts] at hf
      split at hf
      · rcases List.mem_append.1 hf with hf | hf
        · exact toInput_all (inVals_all hs n) f hf
        · exact fromOutput_all hs f hf
      · simp at hf
    · simp only [loopFacts] at hf
      split at hf
      · rcases List.mem_append.1 hf with hf | hf
        · exact toInput_all (inVals_all hs n) f hf
        · split at hf
          · rcases List.mem_append.1 hf with hf | hf
            · exact variantFacts_all (fun vs hv => unpackFirst_all hQ (hs.row _) hv) f hf
            · exact variantFacts_all (fun vs hv => unpackFirst_all hQ (hs.row _) hv) f hf
          · simp at hf
      · simp at hf
    · simp only [condFacts] at hf
      split at hf
      · simp only [List.mem_flatMap] at hf
        obtain ⟨ci, _, hf⟩ := hf
        simp only [caseFacts] at hf
        split at hf
        · rcases List.mem_append.1 hf with hf | hf
          · rcases List.mem_append.1 hf with hf | hf
            · split at hf
              · split at hf
                · exact variantFacts_all (fun vs hv => unpackFirst_all hQ (hs.row _) hv) f hf
                · simp only [List.mem_singleton] at hf; subst hf; trivial
              · simp at hf
            · split at hf
              · exact fromOutput_all hs f hf
              · simp at hf
          · split at hf
            · simp only [List.mem_singleton] at hf; subst hf; trivial
            · simp at hf
        · simp at hf
      · simp at hf
    · simp only [cfgFacts] at hf
      split at hf
      · split at hf
        · rcases List.mem_cons.1 hf with rfl | hf
          · trivial
          · exact toInput_all (inVals_all hs n) f hf
        · simp at hf
      · simp at hf
    · simp only [callFacts] at hf
      split at hf
      · split at hf
        · rcases List.mem_append.1 hf with hf | hf
          · exact toInput_all (inVals_all hs n) f hf
          · exact fromOutput_all hs f hf
        · simp at hf
      · simp at hf
    · simp only [indirectFacts] at hf
      split at hf
      · rcases List.mem_append.1 hf with hf | hf
        · rcases List.mem_cons.1 hf with rfl | hf
          · trivial
          · simp only [targetFacts] at hf
            split at hf
            · rcases List.mem_append.1 hf with hf | hf
              · exact toInput_all (fun x hx => inVals_all hs n x (List.mem_of_mem_drop hx)) f hf
              · exact fromOutput_all hs f hf
            · simp at hf
        · split at hf
          · refine outFacts_all (fun x hx => ?_) f hf
            rw [(List.mem_replicate.1 hx).2]; first | exact hQ.bottom | exact hQ.top
          · simp at hf
      · simp at hf
  · simp only [blockFacts] at hf
    split at hf
    · simp only [List.mem_flatMap] at hf
      obtain ⟨st, _, hf⟩ := hf
      rcases List.mem_append.1 hf with hf | hf
      · split at hf
        · simp only [List.mem_singleton] at hf; subst hf; trivial
        · simp at hf
      · split at hf
        · exact passFacts_all hQ hs f hf
        · simp at hf
    · simp at hf

theorem trace_all {Seen : Nat → List (Abs V) → Prop} {h : Hugr Ops.Op Meta} {K : DFContext V E}
    {proto : List (Nat × Nat × Abs V)} {tr : List (AState V)} {facts : List (Fact V)}
    (hK : ContextAll Seen Q h K) (hseen : ∀ s ∈ tr, RowsSeen Seen h s)
    (hp : ∀ e ∈ proto, Q e.2.2) (hr : Trace h K proto tr facts) :
    (∀ s ∈ tr, StateAll Q h s) ∧ ∀ f ∈ facts, FactAll Q h f := by
  induction hr with
  | init => exact ⟨fun s hs => by simp only [List.mem_singleton] at hs; subst hs; exact stateAll_init hQ h, by simp⟩
  | derive _ hf ih =>
    obtain ⟨h1, h2⟩ := ih hseen
    refine ⟨h1, fun g hg => ?_⟩
    rcases List.mem_cons.1 hg with rfl | hg
    · exact derive_all hQ hK (hseen _ (by simp)) hp (h1 _ (by simp)) _ hf
    · exact h2 g hg
  | add _ hf ih =>
    obtain ⟨h1, h2⟩ := ih fun s hs => hseen s (by simp [hs])
    refine ⟨fun s hs => ?_, h2⟩
    rcases List.mem_cons.1 hs with rfl | hs
    · exact addFact_all hQ (h1 _ (by simp)) (h2 _ hf)
    · exact h1 s hs

omit hQ in
theorem run_wf {h : Hugr Ops.Op Meta} {K : DFContext V E}
    {proto : List (Nat × Nat × Abs V)} {s : AState V} {facts : List (Fact V)} (hK : ContextWF K)
    (hp : ∀ e ∈ proto, WF e.2.2) (hr : Run h K proto s facts) :
    StateWF h s ∧ ∀ f ∈ facts, FactWF h f := by
  obtain ⟨tr, htr⟩ := run_trace hr
  obtain ⟨h1, h2⟩ := trace_all stable_wf (contextAll_wf hK h) (fun _ _ _ _ _ => trivial) hp htr
  exact ⟨h1 s (by simp), h2⟩

/-! ## What a finished state satisfies -/

/-- A state that contains everything it implies. -/
structure Closed (vle : V → V → Prop) (h : Hugr Ops.Op Meta) (facts : List (Fact V)) (s : AState V) :
    Prop where
  out : ∀ n p v, Fact.out n p v ∈ facts → Le vle v (s.outOf n p)
  inn : ∀ n p v, Fact.inn n p v ∈ facts → Le vle v (s.inOf n p)
  row : ∀ n vs, Fact.row n vs ∈ facts → List.Forall₂ (Le vle) vs (s.rowOf h n)
  case : ∀ n c, Fact.case n c ∈ facts → (n, c) ∈ s.cases
  block : ∀ n c, Fact.block n c ∈ facts → (n, c) ∈ s.blocks
  indirect : ∀ n t, Fact.indirect n t ∈ facts → ((s.indirect.get n .bottom).join t).2 = false
  panic : Fact.panic ∉ facts

omit hQ in
theorem closed_of_finished {vle : V → V → Prop} (L : AbsLaws V vle)
    {h : Hugr Ops.Op Meta} {K : DFContext V E}
    {proto : List (Nat × Nat × Abs V)} {s : AState V} (hK : ContextWF K)
    (hp : ∀ e ∈ proto, WF e.2.2) (hs : StateWF h s) (hf : Finished h K proto s) :
    Closed vle h (derive h K proto s) s := by
  have hall : ∀ f ∈ derive h K proto s, (addFact h s f).2 = false ∧ FactWF h f := by
    intro f hm
    have := List.all_eq_true.1 hf f hm
    exact ⟨by simpa using this, derive_all stable_wf (contextAll_wf hK h) (fun _ _ _ => trivial) hp hs f hm⟩
  refine ⟨fun n p v hm => ?_, fun n p v hm => ?_, fun n vs hm => ?_, fun n c hm => ?_,
    fun n c hm => ?_, fun n t hm => ?_, fun hm => ?_⟩
  · obtain ⟨h1, h2⟩ := hall _ hm
    exact le_of_unchanged L _ _ (hs.out n p) h2 h1
  · obtain ⟨h1, h2⟩ := hall _ hm
    exact le_of_unchanged L _ _ (hs.inn n p) h2 h1
  · obtain ⟨h1, h2, h3⟩ := hall _ hm
    have hl : (s.rowOf h n).length = vs.length := by rw [h2, hs.len]
    have hw := hs.row n
    simp only [addFact] at h1
    rw [joinRow_snd] at h1
    clear hm h2
    generalize hrow : s.rowOf h n = row at h1 hl hw
    clear hrow
    induction vs generalizing row with
    | nil => cases row with
      | nil => exact .nil
      | cons => simp at hl
    | cons v vs ih => cases row with
      | nil => simp at hl
      | cons x row =>
        simp only [List.zipWith_cons_cons, List.any_cons, id_eq, Bool.or_eq_false_iff] at h1
        exact .cons (le_of_unchanged L _ _ (hw x (by simp)) (h3 v (by simp)) h1.1)
          (ih (fun y hy => h3 y (by simp [hy])) row h1.2 (by simpa using hl)
            (fun y hy => hw y (by simp [hy])))
  · obtain ⟨h1, _⟩ := hall _ hm
    simp only [addFact] at h1
    by_contra hno
    rw [if_neg hno] at h1; simp at h1
  · obtain ⟨h1, _⟩ := hall _ hm
    simp only [addFact] at h1
    by_contra hno
    rw [if_neg hno] at h1; simp at h1
  · exact (hall _ hm).1
  · have := (hall _ hm).1
    simp [addFact] at this

end Verif.Dataflow
