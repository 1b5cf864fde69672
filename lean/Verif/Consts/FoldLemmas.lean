import Verif.Consts.FoldSpec
import Verif.Consts.Lemmas
import Mathlib.Data.List.Sort
import Mathlib.Data.List.Range
/-!
Helper lemmas about sorting the known constants by port.
-/
namespace Verif.Consts

open Verif.Types

variable {κ φ : Type}

theorem insertByPort_perm (x : Nat × Value κ φ) (l : Known κ φ) :
    (insertByPort x l).Perm (x :: l) := by
  induction l with
  | nil => exact .refl _
  | cons y l ih =>
    unfold insertByPort
    by_cases h : x.1 < y.1
    · rw [if_pos h]
    · rw [if_neg h]
      exact (ih.cons y).trans (.swap x y l)

theorem sortByPort_perm (l : Known κ φ) : (sortByPort l).Perm l := by
  have : ∀ (l acc : Known κ φ), (l.foldl (fun acc x => insertByPort x acc) acc).Perm (acc ++ l) := by
    intro l
    induction l with
    | nil => intro acc; simp
    | cons x l ih =>
      intro acc
      refine (ih (insertByPort x acc)).trans ?_
      refine ((insertByPort_perm x acc).append_right l).trans ?_
      simpa using (List.perm_middle (a := x) (l₁ := acc) (l₂ := l)).symm
  simpa [sortByPort] using this l []

theorem insertByPort_sorted (x : Nat × Value κ φ) (l : Known κ φ)
    (h : (l.map (·.1)).Pairwise (· ≤ ·)) : ((insertByPort x l).map (·.1)).Pairwise (· ≤ ·) := by
  induction l with
  | nil => simp [insertByPort]
  | cons y l ih =>
    unfold insertByPort
    rw [List.map_cons, List.pairwise_cons] at h
    by_cases hx : x.1 < y.1
    · rw [if_pos hx, List.map_cons, List.pairwise_cons]
      refine ⟨?_, by rw [List.map_cons, List.pairwise_cons]; exact h⟩
      intro b hb
      rw [List.map_cons, List.mem_cons] at hb
      rcases hb with rfl | hb
      · omega
      · have := h.1 b hb; omega
    · rw [if_neg hx, List.map_cons, List.pairwise_cons]
      refine ⟨?_, ih h.2⟩
      intro b hb
      have hb' : b ∈ (x :: l).map (·.1) := ((insertByPort_perm x l).map (·.1)).mem_iff.mp hb
      rw [List.map_cons, List.mem_cons] at hb'
      rcases hb' with rfl | hb'
      · omega
      · exact h.1 b hb'

theorem sortByPort_sorted (l : Known κ φ) : ((sortByPort l).map (·.1)).Pairwise (· ≤ ·) := by
  have : ∀ (l acc : Known κ φ), (acc.map (·.1)).Pairwise (· ≤ ·) →
      ((l.foldl (fun acc x => insertByPort x acc) acc).map (·.1)).Pairwise (· ≤ ·) := by
    intro l
    induction l with
    | nil => intro acc h; exact h
    | cons x l ih => intro acc h; exact ih _ (insertByPort_sorted x acc h)
  exact this l [] (by simp)

/-- When every input is known the sorted ports are all ports in order. -/
theorem sorted_ports_full (l : Known κ φ) (n : Nat) (hn : (l.map (·.1)).Nodup)
    (hb : ∀ p ∈ l, p.1 < n) (hl : l.length = n) : (sortByPort l).map (·.1) = List.range n := by
  have hp : ((sortByPort l).map (·.1)).Perm (l.map (·.1)) := (sortByPort_perm l).map _
  have hr : (l.map (·.1)).Perm (List.range n) := by
    refine (List.subperm_of_subset hn ?_).perm_of_length_le (by simp [hl])
    intro a ha
    obtain ⟨p, hp, rfl⟩ := List.mem_map.mp ha
    exact List.mem_range.mpr (hb p hp)
  exact (hp.trans hr).eq_of_pairwise' (r := (· ≤ ·)) (sortByPort_sorted l)
    (List.pairwise_le_range)

theorem supplies_lt {α : Type} {R : Value κ φ → α → Prop} {consts : Known κ φ} {ins : List α}
    (h : Supplies R consts ins) : ∀ p ∈ consts, p.1 < ins.length := by
  intro p hp
  obtain ⟨a, ha, -⟩ := h.2 p hp
  exact (List.getElem?_eq_some_iff.mp ha).1

/-- When every input is known, the sorted constants agree with the inputs one by one. -/
theorem sortedConsts_full {α : Type} {R : Value κ φ → α → Prop} {consts : Known κ φ} {ins : List α}
    (h : Supplies R consts ins) (hl : consts.length = ins.length) :
    (sortedConsts consts).length = ins.length ∧
    ∀ i (hi : i < (sortedConsts consts).length) (hi' : i < ins.length),
      R (sortedConsts consts)[i] ins[i] := by
  have hp := sorted_ports_full consts ins.length h.1 (supplies_lt h) hl
  have hlen : (sortedConsts consts).length = ins.length := by
    simp [sortedConsts, (sortByPort_perm consts).length_eq, hl]
  refine ⟨hlen, fun i hi hi' => ?_⟩
  have hs : i < (sortByPort consts).length := by simpa [sortedConsts] using hi
  have hm : (sortByPort consts)[i] ∈ consts :=
    (sortByPort_perm consts).mem_iff.mp (List.getElem_mem hs)
  have hport : (sortByPort consts)[i].1 = i := by
    have : ((sortByPort consts).map (·.1))[i]'(by simpa using hs) = i := by
      simp only [hp, List.getElem_range]
    simpa using this
  obtain ⟨a, ha, hR⟩ := h.2 _ hm
  rw [hport, List.getElem?_eq_getElem hi'] at ha
  cases ha
  simpa [sortedConsts] using hR

theorem sortedConsts_eq {consts : Known κ φ} {ins : List (Value κ φ)}
    (h : Supplies (fun c v => c = v) consts ins) (hl : consts.length = ins.length) :
    sortedConsts consts = ins := by
  obtain ⟨h1, h2⟩ := sortedConsts_full h hl
  exact List.ext_getElem h1 h2

theorem mem_sortedConsts {consts : Known κ φ} {c : Value κ φ} :
    c ∈ sortedConsts consts ↔ ∃ p, (p, c) ∈ consts := by
  unfold sortedConsts
  constructor
  · intro h
    obtain ⟨q, hq, rfl⟩ := List.mem_map.mp h
    exact ⟨q.1, (sortByPort_perm consts).mem_iff.mp hq⟩
  · rintro ⟨p, hp⟩
    exact List.mem_map.mpr ⟨(p, c), (sortByPort_perm consts).mem_iff.mpr hp, rfl⟩

theorem length_sortedConsts (consts : Known κ φ) : (sortedConsts consts).length = consts.length := by
  simp [sortedConsts, (sortByPort_perm consts).length_eq]

theorem supplies_length {α : Type} {R : Value κ φ → α → Prop} {consts : Known κ φ} {ins : List α}
    (h : Supplies R consts ins) : consts.length ≤ ins.length := by
  have : (consts.map (·.1)).length ≤ (List.range ins.length).length := by
    refine (List.subperm_of_subset h.1 ?_).length_le
    intro a ha
    obtain ⟨p, hp, rfl⟩ := List.mem_map.mp ha
    exact List.mem_range.mpr (supplies_lt h p hp)
  simpa using this

/-! ## Reading booleans -/

theorem mkBool_eq (L : Lib κ φ) (b : Bool) : Value.mkBool L b = some (boolVal b) := by
  have unit : ∀ tag : Nat, tag < 2 →
      Value.mkUnitSum L tag 2 = .ok (.sum tag [] (.unit 2)) := by
    intro tag h
    unfold Value.mkUnitSum
    rw [mkSum_ok]
    exact ⟨checkType_getTypes L _ _ [] [] rfl
      (by
        show (List.replicate 2 [])[tag]? = _
        rw [List.getElem?_replicate, if_pos h]; rfl), rfl⟩
  cases b with
  | true => simp only [Value.mkBool, if_true, unwrap_eq]; exact unit 1 (by omega)
  | false => simp only [Value.mkBool, Bool.false_eq_true, if_false, unwrap_eq]; exact unit 0 (by omega)

/-- A constant that stands for a boolean and is read at all is read as that boolean. -/
theorem readBool_stands {L : Lib κ φ} {c : Value κ φ} {b r : Bool} (h : StandsFor L c b)
    (hr : readBool L c = some r) : r = b := by
  rcases h with h | ⟨k, rfl⟩
  · cases c with
    | sum tag vs ty =>
      simp only [boolVal, Value.rustEq, Bool.and_eq_true, beq_iff_eq] at h
      obtain ⟨⟨rfl, hv⟩, ht⟩ := h
      cases b with
      | true => simpa [readBool, Value.rustEq, hv, ht] using hr.symm
      | false => simpa [readBool, Value.rustEq, hv, ht] using hr.symm
    | _ => simp [boolVal, Value.rustEq] at h
  · simp [readBool, Value.rustEq] at hr

theorem readBool_equal {L : Lib κ φ} {c : Value κ φ} {b : Bool}
    (h : c.rustEq L (boolVal b) = true) : readBool L c = some b := by
  cases c with
  | sum tag vs ty =>
    simp only [boolVal, Value.rustEq, Bool.and_eq_true, beq_iff_eq] at h
    obtain ⟨⟨rfl, hv⟩, ht⟩ := h
    cases b with
    | true => simp [readBool, Value.rustEq, hv, ht]
    | false => simp [readBool, Value.rustEq, hv, ht]
  | _ => simp [boolVal, Value.rustEq] at h

theorem readBools_spec (L : Lib κ φ) (cs : List (Value κ φ)) (bs : List Bool)
    (h : readBools L cs = some bs) :
    cs.length = bs.length ∧ ∀ i (hi : i < cs.length) (hi' : i < bs.length),
      readBool L cs[i] = some bs[i] := by
  induction cs generalizing bs with
  | nil => simp [readBools] at h; subst h; simp
  | cons c cs ih =>
    unfold readBools at h
    cases hc : readBool L c with
    | none => simp [hc] at h
    | some b =>
      cases hs : readBools L cs with
      | none => simp [hc, hs] at h
      | some r =>
        simp only [hc, hs, Option.some.injEq] at h
        subst h
        have := ih r hs
        refine ⟨by simp [this.1], fun i hi hi' => ?_⟩
        cases i with
        | zero => simpa using hc
        | succ i => simpa using this.2 i (by simpa using hi) (by simpa using hi')

theorem readBools_full (L : Lib κ φ) (cs : List (Value κ φ)) (bs : List Bool)
    (hl : cs.length = bs.length)
    (h : ∀ i (hi : i < cs.length) (hi' : i < bs.length), cs[i].rustEq L (boolVal bs[i]) = true) :
    readBools L cs = some bs := by
  induction cs generalizing bs with
  | nil =>
    cases bs with
    | nil => rfl
    | cons b bs => simp at hl
  | cons c cs ih =>
    cases bs with
    | nil => simp at hl
    | cons b bs =>
      have h0 := h 0 (by simp) (by simp)
      have ht := ih bs (by simpa using hl) fun i hi hi' =>
        h (i + 1) (by simpa using hi) (by simpa using hi')
      simp only [readBools, ht]
      rw [readBool_equal (by simpa using h0)]

/-- Every boolean that was read is the one of some input. -/
theorem readInputs_mem {L : Lib κ φ} {consts : Known κ φ} {ins bs : List Bool}
    (h : Supplies (StandsFor L) consts ins) (hr : readInputs L consts = some bs) :
    ∀ b ∈ bs, b ∈ ins := by
  obtain ⟨hl, hi⟩ := readBools_spec L _ bs hr
  intro b hb
  obtain ⟨i, hib, rfl⟩ := List.mem_iff_getElem.mp hb
  have hic : i < (sortedConsts consts).length := hl ▸ hib
  obtain ⟨p, hp⟩ := mem_sortedConsts.mp (List.getElem_mem hic)
  obtain ⟨a, ha, hs⟩ := h.2 _ hp
  rw [readBool_stands hs (hi i hic hib)]
  exact List.mem_of_getElem? ha

theorem readInputs_length {L : Lib κ φ} {consts : Known κ φ} {bs : List Bool}
    (hr : readInputs L consts = some bs) : bs.length = consts.length := by
  rw [← (readBools_spec L _ bs hr).1, length_sortedConsts]

/-- If all inputs were read, they were read correctly. -/
theorem readInputs_full {L : Lib κ φ} {consts : Known κ φ} {ins bs : List Bool}
    (h : Supplies (StandsFor L) consts ins) (hr : readInputs L consts = some bs)
    (hl : bs.length = ins.length) : bs = ins := by
  have hc : consts.length = ins.length := by rw [← readInputs_length hr, hl]
  obtain ⟨h1, h2⟩ := sortedConsts_full h hc
  obtain ⟨h3, h4⟩ := readBools_spec L _ bs hr
  refine List.ext_getElem hl fun i hi hi' => ?_
  have hic : i < (sortedConsts consts).length := by omega
  exact readBool_stands (h2 i hic hi') (h4 i hic hi)

end Verif.Consts
