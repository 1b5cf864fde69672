import Verif.Dataflow.AnalysisSteps

/-!
# Lemmas for the soundness of the dataflow analysis: targets of indirect calls, prepopulated values,
and all executions
-/
namespace Verif.Dataflow

open Verif.Graph Verif.Ops Verif.Passes Verif.Validate PV

variable {Meta V E W : Type}

/-! ## The targets of indirect calls -/

/-- What the target of an indirect call says about the function value. -/
def LatOk (vle : V → V → Prop) : Lat → Abs V → Prop
  | .bottom, _ => True
  | .value f, x => Le vle (.func f ()) x
  | .top, x => unknownFunction x = true

theorem latOk_mono {vle : V → V → Prop} {t : Lat} {x y : Abs V} (h : LatOk vle t x)
    (hle : Le vle x y) : LatOk vle t y := by
  cases t with
  | bottom => trivial
  | value f =>
    simp only [LatOk, Le] at h
    rcases h with rfl | rfl
    · simp only [Le] at hle; subst hle; simp [LatOk, Le]
    · exact hle
  | top =>
    simp only [LatOk] at h ⊢
    cases x with
    | top => simp only [Le] at hle; subst hle; rfl
    | value v =>
      simp only [Le] at hle
      rcases hle with rfl | ⟨w, rfl, _⟩ <;> rfl
    | bottom => simp [unknownFunction] at h
    | func => simp [unknownFunction] at h
    | psum => simp [unknownFunction] at h

theorem latOk_load {vle : V → V → Prop} (x : Abs V) : LatOk vle (loadFunc x) x := by
  cases x <;> simp [loadFunc, LatOk, Le, unknownFunction]

theorem latOk_join {vle : V → V → Prop} {t u : Lat} {x : Abs V} (ht : LatOk vle t x)
    (hu : LatOk vle u x) : LatOk vle (t.join u).1 x := by
  unfold Lat.join
  split
  · exact ht
  · split
    · exact hu
    · cases t with
      | bottom => simp_all
      | top => exact ht
      | value f =>
        cases u with
        | bottom => simp_all
        | top => exact hu
        | value g =>
          simp only [LatOk, Le] at ht hu
          rcases ht with rfl | rfl
          · rfl
          · rcases hu with hu | hu
            · simp at hu
            · simp_all

theorem addFact_inOf [AbsVal V] {vle : V → V → Prop} (L : AbsLaws V vle) {h : Hugr Ops.Op Meta}
    {s : AState V} (hs : StateWF h s) {f : Fact V} (hf : FactWF h f) (n p : Nat) :
    Le vle (s.inOf n p) ((addFact h s f).1.inOf n p) := by
  cases f with
  | inn m q v =>
    simp only [addFact, AState.inOf, Store.get_set]
    split
    · rename_i heq
      simp only [Prod.mk.injEq] at heq
      obtain ⟨rfl, rfl⟩ := heq
      exact le_join_left L _ _ (hs.inn n p) hf
    · exact le_refl L _ (hs.inn n p)
  | case c k => simp only [addFact]; split <;> exact le_refl L _ (hs.inn n p)
  | block c k => simp only [addFact]; split <;> exact le_refl L _ (hs.inn n p)
  | _ => exact le_refl L _ (hs.inn n p)

theorem mem_derive_indirect {h : Hugr Ops.Op Meta} {K : DFContext V E}
    {proto : List (Nat × Nat × Abs V)} {s : AState V} {n : Nat} {t : Lat}
    (hf : Fact.indirect n t ∈ derive h K proto s) : t = loadFunc (s.inOf n 0) := by
  have hout : ∀ m (vs : List (Abs V)), Fact.indirect n t ∉ outFacts m vs := by
    intro m vs hm
    obtain ⟨p, v, _, he⟩ := mem_outFacts.1 hm
    simp at he
  have hvar : ∀ m (r : Variant V Nat Unit), Fact.indirect n t ∉ variantFacts m r := by
    intro m r
    cases r <;> simp [variantFacts, hout]
  have hin : ∀ m (vs : List (Abs V)), Fact.indirect n t ∉ toInput h m vs := by
    intro m vs; unfold toInput; split <;> simp [hout]
  have hfrom : ∀ m k, Fact.indirect n t ∉ fromOutput h s m k := by
    intro m k; unfold fromOutput; split <;> simp [hout]
  simp only [derive, List.mem_append, List.mem_flatMap] at hf
  rcases hf with (hf | ⟨m, _, hf⟩) | ⟨gb, _, hf⟩
  · simp [protoFacts] at hf
  · rcases hf with ((((((((hf | hf) | hf) | hf) | hf) | hf) | hf) | hf) | hf)
    · simp only [wireFacts, List.mem_flatMap] at hf
      obtain ⟨p, _, hf⟩ := hf
      split at hf <;> simp at hf
    · simp [rowFacts] at hf
    · simp only [leafFacts] at hf
      split at hf
      · exact absurd hf (hvar _ _)
      · simp at hf
    · simp only [dfgFacts] at hf
      split at hf
      · exact absurd hf (by simp [hin, hfrom])
      · simp at hf
    · simp only [loopFacts] at hf
      split at hf
      · rcases List.mem_append.1 hf with hf | hf
        · exact absurd hf (hin _ _)
        · split at hf
          · exact absurd hf (by simp [hvar])
          · simp at hf
      · simp at hf
    · simp only [condFacts] at hf
      split at hf
      · simp only [List.mem_flatMap] at hf
        obtain ⟨ci, _, hf⟩ := hf
        simp only [caseFacts] at hf
        split at hf
        · rcases List.mem_append.1 hf with hf | hf
          · rcases List.mem_append.1 hf with hf | hf
            · split at hf
              · split at hf
                · exact absurd hf (hvar _ _)
                · simp at hf
              · simp at hf
            · split at hf
              · exact absurd hf (hfrom _ _)
              · simp at hf
          · split at hf <;> simp at hf
        · simp at hf
      · simp at hf
    · simp only [cfgFacts] at hf
      split at hf
      · split at hf
        · exact absurd hf (by simp [hin])
        · simp at hf
      · simp at hf
    · simp only [callFacts] at hf
      split at hf
      · split at hf
        · exact absurd hf (by simp [hin, hfrom])
        · simp at hf
      · simp at hf
    · simp only [indirectFacts] at hf
      split at hf
      · rcases List.mem_append.1 hf with hf | hf
        · rcases List.mem_cons.1 hf with hf | hf
          · simp only [Fact.indirect.injEq] at hf
            obtain ⟨rfl, rfl⟩ := hf
            rfl
          · simp only [targetFacts] at hf
            split at hf
            · exact absurd hf (by simp [hin, hfrom])
            · simp at hf
        · split at hf
          · exact absurd hf (hout _ _)
          · simp at hf
      · simp at hf
  · simp only [blockFacts] at hf
    split at hf
    · simp only [List.mem_flatMap] at hf
      obtain ⟨st, _, hf⟩ := hf
      rcases List.mem_append.1 hf with hf | hf
      · split at hf <;> simp at hf
      · split at hf
        · simp only [passFacts, List.mem_flatMap] at hf
          obtain ⟨x, _, hf⟩ := hf
          split at hf
          · exact absurd hf (hvar _ _)
          · simp at hf
        · simp at hf
    · simp at hf

theorem run_indirect [AbsVal V] {vle : V → V → Prop} (L : AbsLaws V vle) {h : Hugr Ops.Op Meta}
    {K : DFContext V E} {proto : List (Nat × Nat × Abs V)} {s : AState V} {facts : List (Fact V)}
    (hK : ContextWF K) (hp : ∀ e ∈ proto, WF e.2.2) (hr : Run h K proto s facts) :
    (∀ n, LatOk vle (s.indirect.get n .bottom) (s.inOf n 0)) ∧
    ∀ n t, Fact.indirect n t ∈ facts → LatOk vle t (s.inOf n 0) := by
  induction hr with
  | init => exact ⟨fun n => by simp [Store.get, LatOk], by simp⟩
  | @derive s facts f _ hf ih =>
    refine ⟨ih.1, fun n t hm => ?_⟩
    rcases List.mem_cons.1 hm with rfl | hm
    · rw [mem_derive_indirect hf]; exact latOk_load _
    · exact ih.2 n t hm
  | @add s facts f hrun hf ih =>
    have hwf := run_wf hK hp hrun
    have hmono := fun n => addFact_inOf L hwf.1 (hwf.2 f hf) n 0
    refine ⟨fun n => ?_, fun n t hm => latOk_mono (ih.2 n t hm) (hmono n)⟩
    have hold := latOk_mono (ih.1 n) (hmono n)
    cases f with
    | indirect m t =>
      simp only [addFact, Store.get_set]
      split
      · rename_i hnm; subst hnm
        exact latOk_join (ih.1 n) (ih.2 n t hf)
      · exact hold
    | case c k => simp only [addFact] at hold ⊢; split <;> simp_all
    | block c k => simp only [addFact] at hold ⊢; split <;> simp_all
    | out => exact hold
    | inn => exact hold
    | row => exact hold
    | panic => exact hold

/-! ## Prepopulated values -/

theorem fillVals_described {vd : V → W → Prop} {args : List (Val W)} {inValues : List (Nat × Abs V)}
    {vals vals' : List (Abs V)} (hf : fillVals inValues vals = some vals')
    (hg : Given vd inValues args) {i : Nat} {a : Abs V} {v : Val W} (ha : vals'[i]? = some a)
    (hv : args[i]? = some v)
    (h0 : (∀ e ∈ inValues, e.1 ≠ i) → ∀ b, vals[i]? = some b → Describes vd b v) :
    Describes vd a v := by
  induction inValues generalizing vals with
  | nil =>
    simp only [fillVals, Option.some.injEq] at hf
    subst hf
    exact h0 (by simp) a ha
  | cons e rest ih =>
    obtain ⟨j, w⟩ := e
    simp only [fillVals] at hf
    split at hf
    · rename_i hj
      refine ih hf (fun i v hv pre post pv he hpost => hg i v hv ((j, w) :: pre) post pv ?_ hpost) ?_
      · simp [he]
      · intro hno b hb
        by_cases hji : j = i
        · subst hji
          rw [List.getElem?_set_self hj] at hb
          simp only [Option.some.injEq] at hb
          subst hb
          exact hg j v hv [] rest w rfl hno
        · rw [List.getElem?_set_ne hji] at hb
          refine h0 ?_ b hb
          intro e he
          rcases List.mem_cons.1 he with rfl | he
          · exact hji
          · exact hno e he
    · simp at hf

theorem fillVals_length {inValues : List (Nat × Abs V)} {vals vals' : List (Abs V)}
    (hf : fillVals inValues vals = some vals') : vals'.length = vals.length := by
  induction inValues generalizing vals with
  | nil => simp only [fillVals, Option.some.injEq] at hf; rw [hf]
  | cons e rest ih =>
    obtain ⟨j, w⟩ := e
    simp only [fillVals] at hf
    split at hf
    · rw [ih hf, List.length_set]
    · simp at hf

theorem fillVals_all {Q : Abs V → Prop} {inValues : List (Nat × Abs V)} {vals vals' : List (Abs V)}
    (hf : fillVals inValues vals = some vals') (hi : ∀ e ∈ inValues, Q e.2)
    (hv : ∀ x ∈ vals, Q x) : ∀ x ∈ vals', Q x := by
  induction inValues generalizing vals with
  | nil => simp only [fillVals, Option.some.injEq] at hf; subst hf; exact hv
  | cons e rest ih =>
    obtain ⟨j, w⟩ := e
    simp only [fillVals] at hf
    split at hf
    · refine ih hf (fun e he => hi e (by simp [he])) fun x hx => ?_
      rcases List.mem_or_eq_of_mem_set hx with hx | hx
      · exact hv x hx
      · subst hx; exact hi (j, x) (by simp)
    · simp at hf

theorem mem_prepopulateWires {h : Hugr Ops.Op Meta} {n i : Nat} {vs : List (Abs V)}
    {proto : List (Nat × Nat × Abs V)} {e : Nat × Nat × Abs V} :
    e ∈ prepopulateWires h n i vs proto ↔ e ∈ proto ∨ ∃ k v m q, vs[k]? = some v ∧
      (m, q) ∈ h.linkedInputs n (i + k) ∧ e = (m, q, v) := by
  induction vs generalizing i proto with
  | nil => simp [prepopulateWires]
  | cons w vs ih =>
    rw [prepopulateWires, ih]
    simp only [prepopulateWire, List.mem_append, List.mem_map, Prod.exists]
    constructor
    · rintro ((he | ⟨m, q, hm, rfl⟩) | ⟨k, v, m, q, hk, hm, rfl⟩)
      · exact .inl he
      · exact .inr ⟨0, w, m, q, by simp, by simpa using hm, rfl⟩
      · exact .inr ⟨k + 1, v, m, q, by simpa using hk, by rwa [show i + (k + 1) = i + 1 + k by omega], rfl⟩
    · rintro (he | ⟨k, v, m, q, hk, hm, rfl⟩)
      · exact .inl (.inl he)
      · cases k with
        | zero => simp at hk; subst hk; exact .inl (.inr ⟨m, q, by simpa using hm, rfl⟩)
        | succ k =>
          exact .inr ⟨k, v, m, q, by simpa using hk, by rwa [show i + 1 + k = i + (k + 1) by omega], rfl⟩

theorem prepopulateInputs_sub {h : Hugr Ops.Op Meta} {p1 p2 : List (Nat × Nat × Abs V)} {n : Nat}
    {iv : List (Nat × Abs V)} (hp : prepopulateInputs h p1 n iv = .ok p2) : p1 ⊆ p2 := by
  intro e he
  have hreg : ∀ q, prepopulateRegion h p1 n iv = .ok q → e ∈ q := by
    intro q hq
    unfold prepopulateRegion at hq
    split at hq
    · split at hq
      · simp only [MResult.ok.injEq] at hq
        subst hq
        exact mem_prepopulateWires.2 (.inl he)
      · simp at hq
    · simp at hq
  have hnode : ∀ q, prepopulateNode h p1 n iv = .ok q → e ∈ q := by
    intro q hq
    unfold prepopulateNode at hq
    split at hq
    · simp only [MResult.ok.injEq] at hq
      subst hq
      exact List.mem_append.2 (.inl he)
    · simp at hq
  unfold prepopulateInputs at hp
  split at hp
  · split at hp <;> first | exact hreg _ hp | exact hnode _ hp | simp at hp
  · simp only [MResult.ok.injEq] at hp; subst hp; exact he

theorem prepopulateInputs_all {Q : Abs V → Prop} (hQ : Q .top) {h : Hugr Ops.Op Meta} {p1 p2 : List (Nat × Nat × Abs V)} {n : Nat}
    {iv : List (Nat × Abs V)} (hp : prepopulateInputs h p1 n iv = .ok p2)
    (hi : ∀ e ∈ iv, Q e.2) (h1 : ∀ e ∈ p1, Q e.2.2) : ∀ e ∈ p2, Q e.2.2 := by
  have htop : ∀ k, ∀ x ∈ List.replicate k (top : Abs V), Q x := by
    intro k x hx; rw [(List.mem_replicate.1 hx).2]; exact hQ
  have hreg : ∀ q, prepopulateRegion h p1 n iv = .ok q → ∀ e ∈ q, Q e.2.2 := by
    intro q hq e he
    unfold prepopulateRegion at hq
    split at hq
    · split at hq
      · rename_i vals hv
        simp only [MResult.ok.injEq] at hq
        subst hq
        rcases mem_prepopulateWires.1 he with he | ⟨k, v, m, q, hk, _, rfl⟩
        · exact h1 e he
        · exact fillVals_all hv hi (htop _) v (List.mem_of_getElem? hk)
      · simp at hq
    · simp at hq
  have hnode : ∀ q, prepopulateNode h p1 n iv = .ok q → ∀ e ∈ q, Q e.2.2 := by
    intro q hq e he
    unfold prepopulateNode at hq
    split at hq
    · rename_i vals hv
      simp only [MResult.ok.injEq] at hq
      subst hq
      rcases List.mem_append.1 he with he | he
      · exact h1 e he
      · simp only [List.mem_map, Prod.exists, List.mem_zipIdx_iff_getElem?] at he
        obtain ⟨v, k, hk, rfl⟩ := he
        exact fillVals_all hv hi (htop _) v (List.mem_of_getElem? hk)
    · simp at hq
  unfold prepopulateInputs at hp
  split at hp
  · split at hp <;> first | exact hreg _ hp | exact hnode _ hp | simp at hp
  · simp only [MResult.ok.injEq] at hp; subst hp; exact h1

/-- What holds of the values that were given. -/
def CallsAll (Q : Abs V → Prop) (calls : List (PreCall V)) : Prop :=
  ∀ c ∈ calls, match c with
    | .wire _ _ v => Q v
    | .inputs _ iv => ∀ e ∈ iv, Q e.2

/-- The values that were given are well formed. -/
abbrev CallsWF (calls : List (PreCall V)) : Prop := CallsAll WF calls

theorem prepopulate_sub {h : Hugr Ops.Op Meta} {calls : List (PreCall V)}
    {p1 p2 : List (Nat × Nat × Abs V)} (hp : prepopulate h calls p1 = some p2) : p1 ⊆ p2 := by
  induction calls generalizing p1 with
  | nil => simp only [prepopulate, Option.some.injEq] at hp; subst hp; exact List.Subset.refl _
  | cons c calls ih =>
    cases c with
    | wire n p v =>
      simp only [prepopulate] at hp
      exact fun e he => ih hp (List.mem_append.2 (.inl he))
    | inputs n iv =>
      simp only [prepopulate] at hp
      split at hp
      · rename_i p' hp'
        exact fun e he => ih hp (prepopulateInputs_sub hp' he)
      · simp at hp

theorem prepopulate_all {Q : Abs V → Prop} (hQ : Q .top) {h : Hugr Ops.Op Meta} {calls : List (PreCall V)} (hc : CallsAll Q calls)
    {p1 p2 : List (Nat × Nat × Abs V)} (hp : prepopulate h calls p1 = some p2)
    (h1 : ∀ e ∈ p1, Q e.2.2) : ∀ e ∈ p2, Q e.2.2 := by
  induction calls generalizing p1 with
  | nil => simp only [prepopulate, Option.some.injEq] at hp; subst hp; exact h1
  | cons c calls ih =>
    have hc' : CallsAll Q calls := fun c hm => hc c (List.mem_cons_of_mem _ hm)
    have h0 := hc c (List.mem_cons_self ..)
    cases c with
    | wire n p v =>
      simp only [prepopulate] at hp
      refine ih hc' hp fun e he => ?_
      rcases List.mem_append.1 he with he | he
      · exact h1 e he
      · obtain ⟨mq, _, rfl⟩ := List.mem_map.1 he
        exact h0
    | inputs n iv =>
      simp only [prepopulate] at hp
      split at hp
      · rename_i p' hp'
        exact ih hc' hp (prepopulateInputs_all hQ hp' h0 h1)
      · simp at hp

theorem prepopulate_call {h : Hugr Ops.Op Meta} {calls : List (PreCall V)}
    {p1 p2 : List (Nat × Nat × Abs V)} (hp : prepopulate h calls p1 = some p2) {n : Nat}
    {iv : List (Nat × Abs V)} (hm : PreCall.inputs n iv ∈ calls) :
    ∃ q1 q2, prepopulateInputs h q1 n iv = .ok q2 ∧ q2 ⊆ p2 := by
  induction calls generalizing p1 with
  | nil => simp at hm
  | cons c calls ih =>
    cases c with
    | wire m p v =>
      simp only [prepopulate] at hp
      exact ih hp (by simpa using hm)
    | inputs m iv' =>
      simp only [prepopulate] at hp
      split at hp
      · rename_i p' hp'
        rcases List.mem_cons.1 hm with hm | hm
        · simp only [PreCall.inputs.injEq] at hm
          obtain ⟨rfl, rfl⟩ := hm
          exact ⟨p1, p', hp', prepopulate_sub hp⟩
        · exact ih hp hm
      · simp at hp

theorem runProto_sub {h : Hugr Ops.Op Meta} {p1 p2 : List (Nat × Nat × Abs V)}
    {iv : List (Nat × Abs V)} (hp : runProto h p1 iv = .ok p2) : p1 ⊆ p2 := by
  unfold runProto at hp
  split at hp
  · split at hp
    · simp only [MResult.ok.injEq] at hp; subst hp; exact List.Subset.refl _
    · simp at hp
  · split at hp
    · split at hp
      · rename_i p' hp'
        simp only [MResult.ok.injEq] at hp; subst hp
        exact prepopulateInputs_sub hp'
      · simp at hp
    · simp only [MResult.ok.injEq] at hp; subst hp; exact List.Subset.refl _

theorem runProto_all {Q : Abs V → Prop} (hQ : Q .top) {h : Hugr Ops.Op Meta} {p1 p2 : List (Nat × Nat × Abs V)}
    {iv : List (Nat × Abs V)} (hp : runProto h p1 iv = .ok p2) (hi : ∀ e ∈ iv, Q e.2)
    (h1 : ∀ e ∈ p1, Q e.2.2) : ∀ e ∈ p2, Q e.2.2 := by
  unfold runProto at hp
  split at hp
  · split at hp
    · simp only [MResult.ok.injEq] at hp; subst hp; exact h1
    · simp at hp
  · split at hp
    · split at hp
      · rename_i p' hp'
        simp only [MResult.ok.injEq] at hp; subst hp
        exact prepopulateInputs_all hQ hp' hi h1
      · simp at hp
    · simp only [MResult.ok.injEq] at hp; subst hp; exact h1

/-- A start comes from a call that was made. -/
theorem starts_call {vd : V → W → Prop} {h : Hugr Ops.Op Meta} {calls : List (PreCall V)}
    {inValues : List (Nat × Abs V)} {p0 proto : List (Nat × Nat × Abs V)}
    (hp0 : prepopulate h calls [] = some p0) (hp : runProto h p0 inValues = .ok proto) {n : Nat}
    {args : List (Val W)} (hs : Starts h vd calls inValues n args) :
    isModule (h.ops n) = true ∨ ∃ iv q1 q2, prepopulateInputs h q1 n iv = .ok q2 ∧ q2 ⊆ proto ∧
      Given vd iv args := by
  rcases hs with ⟨_, _, iv, hm, hg⟩ | ⟨hor, _, _, iv, hm, hg⟩
  · obtain ⟨q1, q2, hq, hsub⟩ := prepopulate_call hp0 hm
    exact .inr ⟨iv, q1, q2, hq, fun e he => runProto_sub hp (hsub he), hg⟩
  · simp only [List.mem_singleton, PreCall.inputs.injEq] at hm
    obtain ⟨rfl, rfl⟩ := hm
    by_cases hmod : isModule (h.ops h.entrypoint) = true
    · exact .inl hmod
    · refine .inr ?_
      have hcond : (!iv.isEmpty || !(p0.any fun e => e.1 == h.entrypoint)) = true := by
        rcases hor with hne | hc
        · cases iv with
          | nil => exact absurd rfl hne
          | cons => rfl
        · subst hc
          simp only [prepopulate, Option.some.injEq] at hp0
          subst hp0; simp
      unfold runProto at hp
      rw [if_neg hmod, if_pos hcond] at hp
      split at hp
      · rename_i p' hp'
        simp only [MResult.ok.injEq] at hp; subst hp
        exact ⟨iv, p0, p', hp', List.Subset.refl _, hg⟩
      · simp at hp

theorem starts_started {vd : V → W → Prop} {h : Hugr Ops.Op Meta} {calls : List (PreCall V)}
    {inValues : List (Nat × Abs V)} {n : Nat} {args : List (Val W)}
    (hs : Starts h vd calls inValues n args) : StartedAt h calls n := by
  rcases hs with ⟨_, _, iv, hm, _⟩ | ⟨_, _, _, iv, hm, _⟩
  · exact .inr ⟨iv, hm⟩
  · simp only [List.mem_singleton, PreCall.inputs.injEq] at hm
    exact .inl hm.1

/-! ## All executions -/

section Occurs
variable {C : Validate.Context} {vle : V → V → Prop} [AbsVal V] {vd : V → W → Prop} {good : V → Prop}
  {Ann : Nat → Prop}
  {h : Hugr Ops.Op Meta} {K : DFContext V E} {proto : List (Nat × Nat × Abs V)} {s : AState V}

theorem inv_empty (r : Nat) : Inv vd Ann h s (⟨r, fun _ _ => none, fun _ => False⟩ : Activation W) :=
  ⟨fun _ _ _ hv => by simp at hv, fun _ _ _ hv => by simp at hv, fun _ hp => hp.elim,
    fun _ _ hp => hp.elim, fun _ _ _ _ hp => hp.elim⟩

theorem link_dst_live (d : Done C vle vd good h K proto s) {l : Link} (hl : l ∈ h.links) :
    h.live l.dst = true := by
  obtain ⟨kind, hk1, hk2, p, hp1, hor⟩ := d.valid.kinds l hl
  rcases hor with hor | ⟨q, _, hq, _⟩
  · exact (d.tree.parent_live _ _ hor).1
  · exact (d.tree.parent_live _ _ hq).1

theorem link_src_port (d : Done C vle vd good h K proto s) {l : Link} (hl : l ∈ h.links)
    (hp : l.dstPort < (sigIns (h.ops l.dst)).length) :
    l.srcPort < (sigOuts (h.ops l.src)).length := by
  have hlive := link_dst_live d hl
  obtain ⟨kind, hk1, hk2, p, hp1, _⟩ := d.valid.kinds l hl
  obtain ⟨t, ht⟩ := in_value (d.valid.tags _ hlive) hp
  rw [hk2] at ht
  simp only [Option.some.injEq] at ht
  subst ht
  exact value_out (d.valid.tags _ (d.tree.parent_live _ _ hp1).1) hk1

theorem proto_described (d : Done C vle vd good h K proto s) {m q : Nat} {a : Abs V} {v : Val W}
    (hm : (m, q, a) ∈ proto) (hl : h.live m = true) (hq : q < (sigIns (h.ops m)).length)
    (hd : Describes vd a v) : Describes vd (s.inOf m q) v := by
  refine describes_mono d.desc _ _ _ (d.closed.inn m q a ?_) hd
  simp only [derive, List.mem_append]
  refine .inl (.inl ?_)
  simp only [protoFacts, List.mem_map, List.mem_filter]
  exact ⟨(m, q, a), ⟨hm, by simp [hl, hq]⟩, rfl⟩

theorem region_inv (d : Done C vle vd good h K proto s) {r i o : Nat} {args : List (Val W)}
    {iv : List (Nat × Abs V)} {q1 q2 : List (Nat × Nat × Abs V)} (hlive : h.live r = true)
    (hq : prepopulateInputs h q1 r iv = .ok q2) (hsub : q2 ⊆ proto) (hg : Given vd iv args)
    (hann : Ann r) (hreg : IsRegion h r) (hio : HasIO h r i o) : Inv vd Ann h s (.start r r i args) := by
  have hbody : (body (h.ops r)).isSome = true := by
    rcases hreg with ⟨_, _, hop⟩ | ⟨_, hop⟩ | ⟨_, _, _, hop⟩ <;> rw [hop] <;> rfl
  have hq' : prepopulateRegion h q1 r iv = .ok q2 := by
    unfold prepopulateInputs at hq
    rw [if_pos hlive] at hq
    rcases hreg with ⟨_, _, hop⟩ | ⟨_, hop⟩ | ⟨_, _, _, hop⟩ <;> rw [hop] at hq <;> exact hq
  unfold prepopulateRegion at hq'
  rw [getIo_of hio hbody] at hq'
  simp only [] at hq'
  split at hq'
  · rename_i vals hv
    simp only [MResult.ok.injEq] at hq'
    subst hq'
    have hwires : ∀ m p v, (Activation.start r r i args).wires m p = some v →
        m = i ∧ args[p]? = some v := by
      intro m p v hw
      simp only [Activation.start, Activation.enter, Wires.put] at hw
      split at hw
      · rename_i hm; exact ⟨hm, hw⟩
      · simp at hw
    refine ⟨fun l hl v hw hp => ?_, fun m p v hw => ?_, fun p hp => ?_, fun p sig hp hr => ?_,
      fun p x y z hp hr => ?_⟩
    · obtain ⟨hsrc, hw⟩ := hwires _ _ _ hw
      have hport := link_src_port d hl hp
      have hlen := fillVals_length hv
      simp only [List.length_replicate] at hlen
      rw [hsrc, ← hlen] at hport
      have hval : vals[l.srcPort]? = some vals[l.srcPort] := List.getElem?_eq_getElem hport
      refine proto_described d (a := vals[l.srcPort]) (hsub ?_) (link_dst_live d hl) hp ?_
      · refine mem_prepopulateWires.2 (.inr ⟨l.srcPort, vals[l.srcPort], l.dst, l.dstPort, hval, ?_, rfl⟩)
        simp only [Hugr.linkedInputs, List.mem_map, List.mem_filter, Nat.zero_add]
        exact ⟨l, ⟨hl, by simp [hsrc]⟩, rfl⟩
      · refine fillVals_described hv hg hval hw fun _ b hb => ?_
        rw [(List.mem_replicate.1 (List.mem_of_getElem? hb)).2]
        simp [Describes]
    · obtain ⟨rfl, _⟩ := hwires _ _ _ hw
      exact .inr ⟨hann, hreg, o, hio⟩
    · rcases hp with rfl | hp
      · exact hlive
      · exact hp.elim
    · rcases hp with rfl | hp
      · exact absurd rfl hr
      · exact hp.elim
    · rcases hp with rfl | hp
      · exact absurd rfl hr
      · exact hp.elim
  · simp at hq'

theorem node_described (d : Done C vle vd good h K proto s) {r p : Nat} {args vals : List (Val W)}
    {iv : List (Nat × Abs V)} {q1 q2 : List (Nat × Nat × Abs V)} (hlive : h.live r = true)
    (hlen : args.length = numArgs h r)
    (hq : prepopulateInputs h q1 r iv = .ok q2) (hsub : q2 ⊆ proto) (hg : Given vd iv args)
    (hb : Begins h r args p vals) : List.Forall₂ (Describes vd) (inVals h s r) args := by
  have hq' : prepopulateNode h q1 r iv = .ok q2 := by
    unfold prepopulateInputs at hq
    rw [if_pos hlive] at hq
    cases hb with
    | dfg hop => rw [hop] at hq; exact hq
    | loop hop => rw [hop] at hq; exact hq
    | cond hop => rw [hop] at hq; exact hq
    | cfg hop => rw [hop] at hq; exact hq
  have hl : args.length = (sigIns (h.ops r)).length := by
    rw [hlen]
    have hnum := numIns_eq (d.valid.tags r hlive)
    unfold numArgs
    cases hb with
    | dfg hop => rw [hop]; rfl
    | loop hop => rw [hop]; rfl
    | cond hop => rw [hop] at hnum ⊢; simpa [body] using hnum
    | cfg hop => rw [hop] at hnum ⊢; simpa [body] using hnum
  refine forall2_of_getElem (by simp [inVals, hl]) fun i x y hx hy => ?_
  obtain ⟨rfl, hi⟩ := inVals_getElem hx
  unfold prepopulateNode at hq'
  split at hq'
  · rename_i vs hv
    simp only [MResult.ok.injEq] at hq'
    subst hq'
    have hlen' := fillVals_length hv
    simp only [List.length_replicate] at hlen'
    rw [← hlen'] at hi
    have hval : vs[i]? = some vs[i] := List.getElem?_eq_getElem hi
    refine proto_described d (a := vs[i]) (hsub (List.mem_append.2 (.inr ?_))) hlive
      (by rw [← hlen']; exact hi) ?_
    · simp only [List.mem_map, Prod.exists, List.mem_zipIdx_iff_getElem?]
      exact ⟨vs[i], i, hval, rfl⟩
    · refine fillVals_described hv hg hval hy fun _ b hb => ?_
      rw [(List.mem_replicate.1 (List.mem_of_getElem? hb)).2]
      simp [Describes]
  · simp at hq'

theorem defn_body {f : Nat} (hf : IsDefn h f) : (body (h.ops f)).isSome = true := by
  obtain ⟨_, _, hop⟩ := hf; rw [hop]; rfl

/-- A call whose target is known to the analysis, or one whose target is not known. -/
theorem call_facts (d : Done C vle vd good h K proto s)
    (hlat : ∀ n, LatOk vle (s.indirect.get n .bottom) (s.inOf n 0))
    {calls : List (PreCall V)} (hcov : Covered h calls s) {n f : Nat} (hn : h.live n = true)
    {ins fargs : List (Val W)} (hd : List.Forall₂ (Describes vd) (inVals h s n) ins)
    (hcall : Calls h n ins f fargs) :
    (∃ vs, List.Forall₂ (Describes vd) vs fargs ∧ (∀ x ∈ toInput h f vs, x ∈ derive h K proto s) ∧
      ∀ x ∈ fromOutput h s f n, x ∈ derive h K proto s) ∨
    ∃ sig, h.ops n = .callIndirect sig ∧ unknownFunction (s.inOf n 0) = true := by
  cases hcall with
  | @direct sig targs inst _ l hop hl hdst hport =>
    obtain ⟨f, hf, hall⟩ := hcov.call n _ _ _ hn hop
    have hlf := hall l hl hdst hport
    have hsrc : staticSource h n = some f := by
      unfold staticSource
      have : (h.ops n).staticPort .incoming = .ok (some inst.input.length) := by rw [hop]; rfl
      rw [this]
      simp only []
      have hmem : (l.src, l.srcPort) ∈ h.linkedOutputs n inst.input.length := by
        simp only [Hugr.linkedOutputs, List.mem_map, List.mem_filter]
        exact ⟨l, ⟨hl, by simp [hdst, hport]⟩, rfl⟩
      cases hlo : h.linkedOutputs n inst.input.length with
      | nil => rw [hlo] at hmem; simp at hmem
      | cons e rest =>
        have : e ∈ h.linkedOutputs n inst.input.length := by rw [hlo]; simp
        simp only [Hugr.linkedOutputs, List.mem_map, List.mem_filter] at this
        obtain ⟨l', ⟨hl', hc⟩, rfl⟩ := this
        simp only [Bool.and_eq_true, decide_eq_true_eq] at hc
        simp [hall l' hl' hc.1 hc.2]
    rw [hlf]
    have hsub : ∀ x ∈ callFacts h s n, x ∈ derive h K proto s := fun x hx =>
      mem_derive d.tree hn (.inr (.inr (.inr (.inr (.inr (.inr (.inr (.inl hx))))))))
    simp only [callFacts, hop, hsrc] at hsub
    exact .inl ⟨_, hd, fun x hx => hsub x (List.mem_append.2 (.inl hx)),
      fun x hx => hsub x (List.mem_append.2 (.inr hx))⟩
  | @indirect sig _ _ hop =>
    obtain ⟨a, ha, had⟩ := getElem_forall2 hd (i := 0) rfl
    obtain ⟨rfl, _⟩ := inVals_getElem ha
    cases hin : s.inOf n 0 with
    | top => exact .inr ⟨sig, hop, by rw [hin] at *; rfl⟩
    | bottom => rw [hin] at had; simp [Describes] at had
    | value v => rw [hin] at had; simp [Describes] at had
    | psum r => rw [hin] at had; simp [Describes] at had
    | func g x =>
      rw [hin] at had
      simp only [Describes, Conc.func.injEq] at had
      obtain ⟨rfl, _⟩ := had
      have hsub : ∀ x ∈ indirectFacts h s n, x ∈ derive h K proto s := fun x hx =>
        mem_derive d.tree hn (.inr (.inr (.inr (.inr (.inr (.inr (.inr (.inr hx))))))))
      simp only [indirectFacts, hop] at hsub
      have hflag := d.closed.indirect n _ (hsub _ (by simp; left; rfl))
      have hlat := hlat n
      rw [hin] at hflag hlat
      simp only [loadFunc] at hflag
      have hget : s.indirect.get n .bottom = .value f := by
        cases hg : s.indirect.get n .bottom with
        | bottom => rw [hg] at hflag; simp [Lat.join] at hflag
        | top => rw [hg] at hlat; simp [LatOk, unknownFunction] at hlat
        | value g =>
          rw [hg] at hlat
          simp only [LatOk, Le] at hlat
          rcases hlat with hlat | hlat
          · simp at hlat
          · simp only [PV.func.injEq] at hlat; rw [hlat.1]
      refine .inl ⟨(inVals h s n).drop 1, ?_, fun x hx => hsub x ?_, fun x hx => hsub x ?_⟩
      · cases hv : inVals h s n with
        | nil => rw [hv] at hd; cases hd
        | cons y ys => rw [hv] at hd; cases hd with | cons _ hr => simpa using hr
      · refine List.mem_append.2 (.inl (List.mem_cons_of_mem _ ?_))
        simp only [targetFacts, hget]; exact List.mem_append.2 (.inl hx)
      · refine List.mem_append.2 (.inl (List.mem_cons_of_mem _ ?_))
        simp only [targetFacts, hget]; exact List.mem_append.2 (.inr hx)

theorem occurs_inv (d : Done C vle vd good h K proto s)
    (hlat : ∀ n, LatOk vle (s.indirect.get n .bottom) (s.inOf n 0)) {S : Sem W E}
    (hS : FaithfulOn Seen vd good h K S) (hseen : RowsSeen Seen h s) {calls : List (PreCall V)} {inValues : List (Nat × Abs V)}
    {p0 : List (Nat × Nat × Abs V)} (hp0 : prepopulate h calls [] = some p0)
    (hp : runProto h p0 inValues = .ok proto) (hcov : Covered h calls s) {r : Nat}
    {args : List (Val W)} {a : Activation W}
    (ho : Occurs h S (Starts h vd calls inValues) r args a) :
    Inv vd (StartedAt h calls) h s a ∧ a.root = r := by
  induction ho with
  | @region r i o args hroot hreg hio =>
    refine ⟨?_, rfl⟩
    have hlive : h.live r = true := by
      rcases hroot with hr | ⟨_, hr⟩ <;> exact hr.1
    have hann : StartedAt h calls r := starts_started hroot
    rcases starts_call hp0 hp hroot with hm | ⟨iv, q1, q2, hq, hsub, hg⟩
    · rcases hreg with ⟨_, _, hop⟩ | ⟨_, hop⟩ | ⟨_, _, _, hop⟩ <;> rw [hop] at hm <;>
        simp [isModule] at hm
    · exact region_inv d hlive hq hsub hg hann hreg hio
  | @node r p i o args vals hroot hb hio =>
    refine ⟨?_, rfl⟩
    have hlive : h.live r = true ∧ args.length = numArgs h r := by
      rcases hroot with hr | ⟨_, hr⟩ <;> exact ⟨hr.1, hr.2.1⟩
    rcases starts_call hp0 hp hroot with hm | ⟨iv, q1, q2, hq, hsub, hg⟩
    · cases hb with
      | dfg hop => rw [hop] at hm; simp [isModule] at hm
      | loop hop => rw [hop] at hm; simp [isModule] at hm
      | cond hop => rw [hop] at hm; simp [isModule] at hm
      | cfg hop => rw [hop] at hm; simp [isModule] at hm
    · have hd := node_described d hlive.1 hlive.2 hq hsub hg hb
      obtain ⟨h1, h2, _, h3, h4⟩ := begins_described d hlive.1 hd hb hio
      exact inv_enter d (inv_empty r) h1 h2 (fun sig _ hop => ⟨r, h3 sig hop⟩)
        (fun x y z _ hop => ⟨r, h4 x y z hop⟩)
  | step _ hstep ih =>
    refine ⟨step_inv d hS hseen hcov ih.1 hstep, ?_⟩
    rw [← ih.2]
    cases hstep <;> rfl
  | @call r n f i o args ins fargs a _ hat hr hcall hf hio ih =>
    refine ⟨?_, rfl⟩
    have hn := at_live d hat
    have hflive : h.live f = true :=
      (d.tree.parent_live _ _ (parent_of_child d.tree (io_children hio).1)).2
    obtain ⟨_, _, hfop⟩ := id hf
    rcases call_facts d hlat hcov hn (ready_described d ih.1 hn hr) hcall with
      ⟨vs, hd, hin, _⟩ | ⟨sig, hop, hu⟩
    · refine inv_enter d (inv_empty f) (toInput_described d hio (defn_body hf) hin hd) hflive
        (fun sig hne => absurd rfl hne) (fun x y z hne => absurd rfl hne)
    · have hm := hcov.unknown n sig hn hop hu f hflive hf
      obtain ⟨q1, q2, hq, hsub⟩ := prepopulate_call hp0 hm
      refine region_inv d hflive hq (fun e he => runProto_sub hp (hsub he)) ?_ (.inr ⟨_, hm⟩)
        (.inl hf) hio
      intro i v _ pre post pv he
      simp at he
  | @ret r n f i o args ins fargs outs a b _ hat hr hcall hf hio _ hout hlen iha ihb =>
    refine ⟨inv_put d iha.1 ?_, iha.2⟩
    have hn := at_live d hat
    rcases call_facts d hlat hcov hn (ready_described d iha.1 hn hr) hcall with
      ⟨vs, hd, _, hfrom⟩ | ⟨sig, hop, hu⟩
    · exact fromOutput_described d hio (defn_body hf) hfrom
        (ready_described d ihb.1 (io_live d hio).2 hout)
    · exact unknown_described d hn hop hu hlen

end Occurs

end Verif.Dataflow
