import Verif.Patch.OutlineLemmas
import Mathlib.Data.List.Dedup
import Verif.Patch.ValidLemmas

/-!
# Outlining blocks gives the specified Hugr
-/
namespace Verif.Patch

open Verif.Graph Verif.Ops Verif.Passes Verif.Validate

variable {Meta : Type} {C : Validate.Context} {h g : Hugr Ops.Op Meta}

/-! ## Lists -/

theorem filter_one {l : List Nat} {p : Nat → Bool} {a : Nat} (hd : l.Nodup) (ha : a ∈ l) (hp : ∀ x ∈ l, p x = true ↔ x = a) :
    l.filter p = [a] := by
  have h1 : (l.filter p).Perm [a] := by
    rw [List.perm_ext_iff_of_nodup (hd.filter _) (by simp)]
    intro x
    rw [List.mem_filter, List.mem_singleton]
    exact ⟨fun h => (hp x h.1).1 h.2, fun e => ⟨e ▸ ha, (hp x (e ▸ ha)).2 e⟩⟩
  exact List.perm_singleton.1 h1

theorem flatMap_one {β : Type} {f : Nat → List β} {a : Nat} : ∀ {l : List Nat}, l.Nodup → a ∈ l →
    (∀ x ∈ l, x ≠ a → f x = []) → l.flatMap f = f a
  | [], _, ha, _ => by cases ha
  | x :: l, hd, ha, hf => by
    rw [List.nodup_cons] at hd
    rw [List.flatMap_cons]
    by_cases hx : x = a
    · subst hx
      have : l.flatMap f = [] := by
        rw [List.flatMap_eq_nil_iff]
        intro y hy
        exact hf y (by simp [hy]) (fun e => hd.1 (e ▸ hy))
      rw [this, List.append_nil]
    · rw [hf x (by simp) hx, List.nil_append]
      exact flatMap_one hd.2 (by simpa [Ne.symm hx] using ha) (fun y hy => hf y (by simp [hy]))

theorem flatMap_single {β : Type} {f : Nat → List β} {y : β} : ∀ {l : List Nat}, l.flatMap f = [y] →
    ∃ a ∈ l, f a = [y] ∧ ∀ x ∈ l, f x ≠ [] → x = a
  | [], h => by simp at h
  | x :: l, h => by
    rw [List.flatMap_cons] at h
    cases hx : f x with
    | nil =>
      rw [hx, List.nil_append] at h
      obtain ⟨a, h1, h2, h3⟩ := flatMap_single h
      refine ⟨a, by simp [h1], h2, fun z hz hne => ?_⟩
      rcases List.mem_cons.1 hz with rfl | hz
      · exact absurd hx hne
      · exact h3 z hz hne
    | cons b bs =>
      rw [hx] at h
      simp only [List.cons_append, List.cons.injEq, List.append_eq_nil_iff] at h
      obtain ⟨rfl, rfl, h2⟩ := h
      refine ⟨x, by simp, hx, fun z hz hne => ?_⟩
      rcases List.mem_cons.1 hz with rfl | hz
      · rfl
      · exact absurd (List.flatMap_eq_nil_iff.1 h2 z hz) hne

/-! ## Links of blocks -/

/-- Control comes in at one port. -/
theorem into_block (hv : Valid C h) {l : Link} (hl : l ∈ h.links) {row : List Types.Ty} (hop : BlockInput (h.ops l.dst) row) :
    l.dstPort = 0 ∧ srcKind h l = some .controlFlow := by
  obtain ⟨kind, h1, h2, _⟩ := hv.kinds l hl
  have hp : (h.ops l.dst).ports .incoming = [.controlFlow] := by
    rcases hop with ⟨other, rows, e⟩ | e <;> rw [e] <;> rfl
  rw [hp] at h2
  have h3 := (List.getElem?_eq_some_iff.1 h2).1
  have h4 : l.dstPort = 0 := by simpa using h3
  rw [h4] at h2
  cases h2
  exact ⟨h4, h1⟩

/-- Control goes out by one link for each port. -/
theorem out_once (ht : IsTree h) (hv : Valid C h) {l : Link} (hl : l ∈ h.links) (hk : srcKind h l = some .controlFlow) :
    h.links.countP (fun k => k.at l.src .outgoing l.srcPort) = 1 := by
  have hlive : h.live l.src = true := by
    obtain ⟨_, _, _, p, hp, _⟩ := hv.kinds l hl
    exact (ht.parent_live _ _ hp).1
  have := hv.outDegree l.src l.srcPort _ hlive hk
  have h1 : (linksFrom h l.src l.srcPort).length = 1 := this
  rw [← h1, List.countP_eq_length_filter]
  rfl

theorem count_unique {ls : List Link} {s p : Nat} (hc : ls.countP (fun k => k.at s .outgoing p) = 1) {a b : Link}
    (ha : a ∈ ls) (hb : b ∈ ls) (h1 : a.src = s ∧ a.srcPort = p) (h2 : b.src = s ∧ b.srcPort = p) : a = b := by
  rw [List.countP_eq_length_filter] at hc
  obtain ⟨x, hx⟩ := List.length_eq_one_iff.1 hc
  have m1 : a ∈ ls.filter (fun k => k.at s .outgoing p) := List.mem_filter.2 ⟨ha, by simp [Link.at, h1]⟩
  have m2 : b ∈ ls.filter (fun k => k.at s .outgoing p) := List.mem_filter.2 ⟨hb, by simp [Link.at, h2]⟩
  rw [hx, List.mem_singleton] at m1 m2
  rw [m1, m2]

theorem filter_unique {ls : List Link} {s p : Nat} (hc : ls.countP (fun k => k.at s .outgoing p) = 1) {a : Link}
    (ha : a ∈ ls) (h1 : a.src = s ∧ a.srcPort = p) : (ls.filter fun l => l.src = s && l.srcPort = p) = [a] := by
  have hc' : (ls.filter fun l => l.src = s && l.srcPort = p).length = 1 := by
    rw [← hc, List.countP_eq_length_filter]
    rfl
  obtain ⟨x, hx⟩ := List.length_eq_one_iff.1 hc'
  have m1 : a ∈ ls.filter fun l => l.src = s && l.srcPort = p := List.mem_filter.2 ⟨ha, by simp [h1]⟩
  rw [hx, List.mem_singleton] at m1
  rw [hx, m1]

/-- A port of a block that is live has a link. -/
theorem block_port (ht : IsTree h) (hv : Valid C h) {b p : Nat} (hb : h.live b = true) {x y : List Types.Ty}
    {rows : List (List Types.Ty)} (hop : h.ops b = .dataflowBlock x y rows) (hp : p < rows.length) :
    ∃ l ∈ h.links, l.src = b ∧ l.srcPort = p := by
  have hk : ((h.ops b).ports .outgoing)[p]? = some .controlFlow := by
    rw [hop]; simp [Op.ports, hp]
  have hd := hv.outDegree b p _ hb hk
  have hpos : 0 < (linksFrom h b p).length := by
    have : (linksFrom h b p).length = 1 := hd
    omega
  obtain ⟨k, hk⟩ := List.exists_mem_of_length_pos hpos
  obtain ⟨q1, q2⟩ := List.mem_filter.1 hk
  simp only [Bool.and_eq_true, decide_eq_true_eq] at q2
  exact ⟨k, q1, q2.1, q2.2⟩

theorem from_block {l : Link} (hv : Valid C h) (hl : l ∈ h.links) {x y : List Types.Ty}
    {rows : List (List Types.Ty)} (hop : h.ops l.src = .dataflowBlock x y rows) :
    srcKind h l = some .controlFlow ∧ l.srcPort < rows.length ∧ ∃ row, BlockInput (h.ops l.dst) row ∧ l.dstPort = 0 := by
  obtain ⟨kind, h1, h2, _⟩ := hv.kinds l hl
  have hk : kind = .controlFlow ∧ l.srcPort < rows.length := by
    unfold srcKind at h1
    rw [hop] at h1
    simp only [Op.ports] at h1
    have hlt := (List.getElem?_eq_some_iff.1 h1).1
    have hm := List.mem_of_getElem? h1
    simp only [List.mem_map] at hm
    obtain ⟨_, _, e⟩ := hm
    exact ⟨e.symm, by simpa using hlt⟩
  obtain ⟨rfl, hlt⟩ := hk
  refine ⟨h1, hlt, ?_⟩
  have hm := List.mem_of_getElem? h2
  cases hop' : h.ops l.dst with
  | dataflowBlock a b c =>
    exact ⟨a, .inl ⟨_, _, rfl⟩, (into_block hv hl (row := a) (.inl ⟨_, _, hop'⟩)).1⟩
  | exitBlock a =>
    exact ⟨a, .inr rfl, (into_block hv hl (row := a) (.inr hop')).1⟩
  | _ =>
    rw [hop'] at hm
    simp [Op.ports] at hm

/-! ## The check -/

/-- All these are basic blocks. -/
def AllBlocks (h : Hugr Ops.Op Meta) (bs : List Nat) : Prop := ∀ b ∈ bs, ∃ x y r, h.ops b = .dataflowBlock x y r

theorem enters_iff {G c : Nat} {rest bs : List Nat} (hc : h.children G = c :: rest) (b : Nat) :
    Enters h bs c b ↔ ((h.children G).head? = some b ∨ ∃ l ∈ h.links, l.dst = b ∧ l.src ∉ bs) := by
  unfold Enters
  rw [hc]
  simp only [List.head?_cons, Option.some.injEq]
  constructor
  · rintro (rfl | ⟨p, hp, hn⟩)
    · exact .inl rfl
    · obtain ⟨l, h1, h2, rfl⟩ := mem_inputNeighbours.1 hp
      exact .inr ⟨l, h1, h2, hn⟩
  · rintro (rfl | ⟨l, h1, h2, h3⟩)
    · exact .inl rfl
    · exact .inr ⟨l.src, mem_inputNeighbours.2 ⟨l, h1, h2, rfl⟩, h3⟩

theorem SingleEntryExit.compute {G entry exit port outside : Nat} {bs : List Nat} (ht : IsTree h) (hv : Valid C h)
    (hb : AllBlocks h bs) (z : SingleEntryExit h G bs entry exit port outside) :
    computeEntryExit h bs = .ok (entry, exit, outside) := by
  have hpar : bs.map h.getParent = List.replicate bs.length (some G) := by
    rw [List.eq_replicate_iff]
    refine ⟨by simp, fun x hx => ?_⟩
    obtain ⟨b, hb, rfl⟩ := List.mem_map.1 hx
    rw [getParent_eq ht]; exact z.siblings b hb
  have hne : bs.length ≠ 0 := by
    have := List.length_pos_of_mem z.entry_mem
    omega
  obtain ⟨sig, hop⟩ := z.op
  have hmem : entry ∈ h.children G := (ht.child_iff _ _).2 (z.siblings _ z.entry_mem)
  obtain ⟨c, rest, hc⟩ : ∃ c rest, h.children G = c :: rest := by
    cases h' : h.children G with
    | nil => rw [h'] at hmem; cases hmem
    | cons c rest => exact ⟨c, rest, rfl⟩
  have hscan : scanBlocks h bs c bs none none = .ok (some entry, some (exit, outside)) := by
    rw [scan_ok]
    refine ⟨?_, ?_⟩
    · simp only [Option.toList_none, List.nil_append, Option.toList_some]
      refine filter_one z.once z.entry_mem fun x hx => ?_
      rw [decide_eq_true_iff, enters_iff hc]; exact z.enters x hx
    · simp only [Option.toList_none, List.nil_append, Option.toList_some]
      rw [flatMap_one z.once z.exit_mem]
      · obtain ⟨x, y, r, e⟩ := hb exit z.exit_mem
        have hk := (from_block hv z.left e).1
        have hc1 := out_once ht hv z.left hk
        have hf := filter_unique hc1 z.left ⟨rfl, rfl⟩
        have : (outputNeighbours h exit).filter (· ∉ bs) = [outside] := by
          unfold outputNeighbours
          rw [List.filter_map, List.filter_filter]
          have e2 : (h.links.filter fun a => ((fun x => decide (x ∉ bs)) ∘ Link.dst) a && decide (a.src = exit)) =
              h.links.filter fun l => l.src = exit && l.srcPort = port := by
            apply List.filter_congr
            intro l hl
            by_cases e1 : l.src = exit
            · have := z.leaves l hl (e1 ▸ z.exit_mem)
              simp only [Function.comp_apply, e1, decide_true, Bool.and_true, Bool.true_and]
              rw [decide_eq_decide, this]
              simp [e1]
            · simp [e1]
          rw [e2, hf]; rfl
        rw [this]; rfl
      · intro b hbm hbe
        rw [List.map_eq_nil_iff, List.filter_eq_nil_iff]
        intro t ht'
        obtain ⟨l, h1, h2, rfl⟩ := mem_outputNeighbours.1 ht'
        simp only [decide_eq_true_eq, not_not]
        by_contra hn
        exact hbe (h2 ▸ ((z.leaves l h1 (h2 ▸ hbm)).1 hn).1)
  unfold computeEntryExit
  rw [hpar, List.replicate_dedup hne]
  simp only [hop, hc, hscan]

theorem compute_single {entry exit outside : Nat} {bs : List Nat} (ht : IsTree h) (hv : Valid C h) (hd : bs.Nodup)
    (hb : AllBlocks h bs) (hc : computeEntryExit h bs = .ok (entry, exit, outside)) :
    ∃ G port, SingleEntryExit h G bs entry exit port outside := by
  unfold computeEntryExit at hc
  split at hc
  · rename_i G hpar
    split at hc
    · rename_i sig hop
      split at hc
      · cases hc
      · rename_i c rest hch
        split at hc
        · cases hc
        · rename_i e x o hs
          simp only [Except.ok.injEq, Prod.mk.injEq] at hc
          obtain ⟨rfl, rfl, rfl⟩ := hc
          rw [scan_ok] at hs
          simp only [Option.toList_none, List.nil_append, Option.toList_some] at hs
          obtain ⟨h1, h2⟩ := hs
          have hsib : ∀ b ∈ bs, h.hier.parent b = some G := by
            intro b hb
            have : h.getParent b ∈ (bs.map h.getParent).dedup := List.mem_dedup.2 (List.mem_map_of_mem hb)
            rw [hpar, List.mem_singleton] at this
            rw [← getParent_eq ht]; exact this
          have hent : ∀ b ∈ bs, ((h.children G).head? = some b ∨ ∃ l ∈ h.links, l.dst = b ∧ l.src ∉ bs) ↔ b = e := by
            intro b hb
            rw [← enters_iff hch]
            have : b ∈ bs.filter (fun n => Enters h bs c n) ↔ b = e := by rw [h1, List.mem_singleton]
            rw [← this, List.mem_filter]
            simp [hb]
          have hem : e ∈ bs := by
            have : e ∈ bs.filter (fun n => Enters h bs c n) := by rw [h1]; simp
            exact (List.mem_filter.1 this).1
          obtain ⟨a, a1, a2, a3⟩ := flatMap_single h2
          obtain ⟨o', ho', ho''⟩ : ∃ o', (outputNeighbours h a).filter (· ∉ bs) = [o'] ∧ (a, o') = (x, o) := by
            cases hf : (outputNeighbours h a).filter (· ∉ bs) with
            | nil => rw [hf] at a2; cases a2
            | cons o' os =>
              rw [hf] at a2
              simp only [List.map_cons, List.cons.injEq, List.map_eq_nil_iff] at a2
              obtain ⟨q1, rfl⟩ := a2
              exact ⟨o', rfl, q1⟩
          obtain ⟨rfl, rfl⟩ := Prod.mk.inj ho''
          have hl1 : (h.links.filter fun l => decide (l.dst ∉ bs) && decide (l.src = a)).map Link.dst = [o'] := by
            rw [← ho']
            unfold outputNeighbours
            rw [List.filter_map, List.filter_filter]
            rfl
          obtain ⟨l0, hl0, hl0d⟩ := List.map_eq_singleton_iff.1 hl1
          have hm0 : l0 ∈ h.links ∧ l0.dst ∉ bs ∧ l0.src = a := by
            have : l0 ∈ h.links.filter fun l => decide (l.dst ∉ bs) && decide (l.src = a) := by rw [hl0]; simp
            obtain ⟨q1, q2⟩ := List.mem_filter.1 this
            simpa [q1] using q2
          obtain ⟨bx, bY, br, be⟩ := hb a a1
          obtain ⟨k1, _, row, _, k4⟩ := from_block hv hm0.1 (hm0.2.2 ▸ be)
          refine ⟨G, l0.srcPort, ⟨sig, hop⟩, hsib, hd, hem, a1, hent, ?_, ?_, ?_⟩
          · intro l hl hs
            constructor
            · intro hn
              have hla : l.src = a := by
                refine a3 l.src hs fun e => ?_
                have hmem : l.dst ∈ (outputNeighbours h l.src).filter (· ∉ bs) :=
                  List.mem_filter.2 ⟨mem_outputNeighbours.2 ⟨l, hl, rfl, rfl⟩, by simpa using hn⟩
                rw [List.map_eq_nil_iff.1 e] at hmem
                cases hmem
              have : l ∈ h.links.filter fun l => decide (l.dst ∉ bs) && decide (l.src = a) :=
                List.mem_filter.2 ⟨hl, by simp [hn, hla]⟩
              rw [hl0, List.mem_singleton] at this
              exact ⟨hla, by rw [this]⟩
            · rintro ⟨e1, e2⟩
              have hc1 := out_once ht hv hm0.1 k1
              rw [count_unique hc1 hl hm0.1 ⟨by rw [e1, hm0.2.2], e2⟩ ⟨rfl, rfl⟩]
              exact hm0.2.1
          · have : l0 = ⟨a, l0.srcPort, o', 0⟩ := by
              rw [← hm0.2.2, ← hl0d, ← k4]
            rw [← this]; exact hm0.1
          · rw [← hl0d]; exact hm0.2.1
        · cases hc
        · cases hc
    · cases hc
  · cases hc

end Verif.Patch
