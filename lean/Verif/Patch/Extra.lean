import Verif.Patch.SameFlow

/-!
# A node that makes no difference

Two Hugrs of which one has an extra node without children in a region. The values it outputs are not
used, or are a value that the other Hugr uses in its place.
-/
namespace Verif.Patch

open Verif.Graph Verif.Ops Verif.Dataflow Verif.Validate

variable {Meta W E : Type}

/-- The same wires, other than those out of `w`. -/
def EqOff (w : Nat) (ρ σ : Wires W) : Prop := ∀ n, n ≠ w → ρ n = σ n

/-- `B` has the extra node `w` in the region `P`. Where `B` uses what `w` outputs, `A` uses the output
port `sp` of `s`. -/
structure Extra (A B : Hugr Ops.Op Meta) (w P s sp : Nat) : Prop where
  ops : ∀ n, n ≠ w → B.ops n = A.ops n
  defn : ∀ f, IsDefn A f ↔ IsDefn B f
  nodefn : ¬ IsDefn A w
  kids : ∀ p, p ≠ P → p ≠ w → B.children p = A.children p
  mem : ∀ n, n ∈ B.children P ↔ n ∈ A.children P ∨ n = w
  io : (body (B.ops P)).isSome = true → ∀ i o, HasIO A P i o ↔ HasIO B P i o
  head : ∀ sig, B.ops P = .cfg sig → ∀ b, (∃ r, A.children P = b :: r) ↔ ∃ r, B.children P = b :: r
  absent : ∀ p, w ∉ A.children p
  home : ∀ p n, n ∈ B.children P → n ∈ B.children p → p = P
  region : ∀ x y z, B.ops P ≠ .conditional x y z
  case : ∀ n x y z, B.ops n = .conditional x y z → P ∈ B.children n → (body (B.ops P)).isSome = true
  ne : P ≠ w
  src : s ≠ w
  clean : ∀ l ∈ A.links, l.src ≠ w ∧ l.dst ≠ w
  back : ∀ l ∈ B.links, Matters B l → l.dst ≠ w → l.src ≠ w → l ∈ A.links
  over : ∀ l ∈ B.links, Matters B l → l.src = w → l.dst ≠ w ∧ l.srcPort = 0 ∧
    l.dst ∈ B.children P ∧ (B.ops l.dst).ownStaticPort ≠ some l.dstPort ∧
    (⟨s, sp, l.dst, l.dstPort⟩ : Link) ∈ A.links
  noflow : ∀ l ∈ B.links, ∀ {b}, b ≠ w → l.src = b → ∀ {x y z}, B.ops b = .dataflowBlock x y z →
    l.dst ≠ w
  forth : ∀ l ∈ A.links, Matters A l → l ∈ B.links ∨
    (l.src = s ∧ l.srcPort = sp ∧ l.dst ∈ B.children P ∧
      (A.ops l.dst).ownStaticPort ≠ some l.dstPort ∧ (∀ x y z, A.ops l.src ≠ .dataflowBlock x y z) ∧
      (⟨w, 0, l.dst, l.dstPort⟩ : Link) ∈ B.links)

/-- What the extra node does: it can always run, and outputs the value that is used in its place. -/
structure Passes (A B : Hugr Ops.Op Meta) (S : Sem W E) (w P s sp : Nat) : Prop where
  able : ∀ (σ : Wires W) i o, HasIO A P i o →
    (∀ n, n ∈ A.children P → n ≠ i → ∃ ins, Ready A σ n ins) →
    ∃ ins outs, outs.length = numOuts (B.ops w) ∧ (∀ σ', EqOff w σ σ' → Ready B σ' w ins) ∧
      (∀ ρ, Runs B S (.node ρ w ins outs)) ∧
      ∀ l ∈ B.links, Matters B l → l.src = w → outs[0]? = σ s sp
  same : ∀ (σ : Wires W) ins outs, Ready B σ w ins → Runs B S (.node σ w ins outs) →
    ∀ l ∈ B.links, Matters B l → l.src = w → outs[0]? = σ s sp

variable {A B : Hugr Ops.Op Meta} {S : Sem W E} {w P s sp : Nat}

namespace Extra

theorem matters_up (e : Extra A B w P s sp) {l : Link} (h1 : l.src ≠ w) (h2 : l.dst ≠ w)
    (hm : Matters A l) : Matters B l := by
  unfold Matters at hm ⊢; rw [e.ops _ h1, e.ops _ h2]; exact hm

theorem calls_up (e : Extra A B w P s sp) {n f : Nat} (hn : n ≠ w) {ins args : List (Val W)}
    (hc : Calls A n ins f args) : Calls B n ins f args := by
  cases hc with
  | @direct _ _ _ _ l h1 h2 h3 h4 =>
    have hs : (A.ops l.dst).ownStaticPort = some l.dstPort := by rw [h3, h1, h4]; rfl
    rcases e.forth l h2 (.inr (.inl hs)) with h | ⟨_, _, _, h, _⟩
    · exact .direct (by rw [e.ops n hn]; exact h1) h h3 h4
    · exact absurd hs h
  | indirect h1 => exact .indirect (by rw [e.ops n hn]; exact h1)

theorem calls_down (e : Extra A B w P s sp) {n f : Nat} (hn : n ≠ w) {ins args : List (Val W)}
    (hc : Calls B n ins f args) : Calls A n ins f args := by
  cases hc with
  | @direct _ _ _ _ l h1 h2 h3 h4 =>
    have hs : (B.ops l.dst).ownStaticPort = some l.dstPort := by rw [h3, h1, h4]; rfl
    by_cases hw : l.src = w
    · exact absurd hs (e.over l h2 (.inr (.inl hs)) hw).2.2.2.1
    · exact .direct (by rw [← e.ops n hn]; exact h1)
        (e.back l h2 (.inr (.inl hs)) (by rw [h3]; exact hn) hw) h3 h4
  | indirect h1 => exact .indirect (by rw [← e.ops n hn]; exact h1)

theorem leaf_up (e : Extra A B w P s sp) {n : Nat} (hn : n ≠ w) {ins outs : List (Val W)}
    (hf : Leaf A S n ins outs) : Leaf B S n ins outs := by
  cases hf with
  | makeTuple h1 => exact .makeTuple (by rw [e.ops n hn]; exact h1)
  | unpackTuple h1 h2 => exact .unpackTuple (by rw [e.ops n hn]; exact h1) h2
  | tag h1 => exact .tag (by rw [e.ops n hn]; exact h1)
  | @loadConstant _ _ l h1 h2 h3 h4 h5 =>
    have hs : (A.ops l.dst).ownStaticPort = some l.dstPort := by rw [h3, h1, h4]; rfl
    rcases e.forth l h2 (.inr (.inl hs)) with h | ⟨_, _, _, h, _⟩
    · exact .loadConstant (by rw [e.ops n hn]; exact h1) h h3 h4
        (by rw [e.ops _ (e.clean l h2).1]; exact h5)
    · exact absurd hs h
  | @loadFunction _ _ _ l h1 h2 h3 h4 =>
    have hs : (A.ops l.dst).ownStaticPort = some l.dstPort := by rw [h3, h1, h4]; rfl
    rcases e.forth l h2 (.inr (.inl hs)) with h | ⟨_, _, _, h, _⟩
    · exact .loadFunction (by rw [e.ops n hn]; exact h1) h h3 h4
    · exact absurd hs h
  | ext h1 h2 h3 h4 => exact .ext (by rw [e.ops n hn]; exact h1) h2 h3 h4
  | external h1 h2 h3 h4 =>
    exact .external (e.calls_up hn h1) (fun h => h2 ((e.defn _).2 h)) (by rw [e.ops n hn]; exact h3) h4
  | unknown h1 h2 h3 =>
    exact .unknown (by rw [e.ops n hn]; exact h1) (by rw [e.ops n hn]; exact h2) h3

theorem leaf_down (e : Extra A B w P s sp) {n : Nat} (hn : n ≠ w) {ins outs : List (Val W)}
    (hf : Leaf B S n ins outs) : Leaf A S n ins outs := by
  cases hf with
  | makeTuple h1 => exact .makeTuple (by rw [← e.ops n hn]; exact h1)
  | unpackTuple h1 h2 => exact .unpackTuple (by rw [← e.ops n hn]; exact h1) h2
  | tag h1 => exact .tag (by rw [← e.ops n hn]; exact h1)
  | @loadConstant _ _ l h1 h2 h3 h4 h5 =>
    have hs : (B.ops l.dst).ownStaticPort = some l.dstPort := by rw [h3, h1, h4]; rfl
    by_cases hw : l.src = w
    · exact absurd hs (e.over l h2 (.inr (.inl hs)) hw).2.2.2.1
    · exact .loadConstant (by rw [← e.ops n hn]; exact h1)
        (e.back l h2 (.inr (.inl hs)) (by rw [h3]; exact hn) hw) h3 h4
        (by rw [← e.ops _ hw]; exact h5)
  | @loadFunction _ _ _ l h1 h2 h3 h4 =>
    have hs : (B.ops l.dst).ownStaticPort = some l.dstPort := by rw [h3, h1, h4]; rfl
    by_cases hw : l.src = w
    · exact absurd hs (e.over l h2 (.inr (.inl hs)) hw).2.2.2.1
    · exact .loadFunction (by rw [← e.ops n hn]; exact h1)
        (e.back l h2 (.inr (.inl hs)) (by rw [h3]; exact hn) hw) h3 h4
  | ext h1 h2 h3 h4 => exact .ext (by rw [← e.ops n hn]; exact h1) h2 h3 h4
  | external h1 h2 h3 h4 =>
    exact .external (e.calls_down hn h1) (fun h => h2 ((e.defn _).1 h))
      (by rw [← e.ops n hn]; exact h3) h4
  | unknown h1 h2 h3 =>
    exact .unknown (by rw [← e.ops n hn]; exact h1) (by rw [← e.ops n hn]; exact h2) h3

/-- The inputs of a node are ready with the extra node, if it outputs the value that is used in its
place. -/
theorem ready_up (e : Extra A B w P s sp) {σ σ' : Wires W} (hσ : EqOff w σ σ') {n : Nat} (hn : n ≠ w)
    (hv : n ∈ B.children P → (∃ l ∈ B.links, Matters B l ∧ l.src = w) → σ' w 0 = σ s sp)
    {ins : List (Val W)} (hr : Ready A σ n ins) : Ready B σ' n ins := by
  refine ⟨by rw [e.ops n hn]; exact hr.1, fun i v hi => ?_⟩
  obtain ⟨l, h1, h2, h3, h4⟩ := hr.2 i v hi
  have hlt : i < ins.length := (List.getElem?_eq_some_iff.1 hi).1
  have hm : Matters A l := .inl (by rw [h2, h3, ← hr.1]; exact hlt)
  rcases e.forth l h1 hm with h | ⟨q1, q2, q3, _, _, q6⟩
  · exact ⟨l, h, h2, h3, by rw [← hσ _ (e.clean l h1).1]; exact h4⟩
  · refine ⟨_, q6, h2, h3, ?_⟩
    change σ' w 0 = some v
    rw [hv (h2 ▸ q3) ⟨_, q6, .inl ?_, rfl⟩, ← h4, q1, q2]
    change l.dstPort < numIns (B.ops l.dst)
    rw [h2, h3, e.ops n hn, ← hr.1]; exact hlt

theorem ready_down (e : Extra A B w P s sp) {σ σ' : Wires W} (hσ : EqOff w σ σ') {n : Nat} (hn : n ≠ w)
    (hv : n ∈ B.children P → (∃ l ∈ B.links, Matters B l ∧ l.src = w) → σ' w 0 = σ' s sp)
    {ins : List (Val W)} (hr : Ready B σ' n ins) : Ready A σ n ins := by
  refine ⟨by rw [← e.ops n hn]; exact hr.1, fun i v hi => ?_⟩
  obtain ⟨l, h1, h2, h3, h4⟩ := hr.2 i v hi
  have hlt : i < ins.length := (List.getElem?_eq_some_iff.1 hi).1
  have hm : Matters B l := .inl (by rw [h2, h3, ← hr.1]; exact hlt)
  by_cases hw : l.src = w
  · obtain ⟨_, q2, q3, _, q5⟩ := e.over l h1 hm hw
    refine ⟨_, q5, h2, h3, ?_⟩
    change σ s sp = some v
    rw [hσ _ e.src, ← hv (h2 ▸ q3) ⟨l, h1, hm, hw⟩, ← h4, hw, q2]
  · exact ⟨l, e.back l h1 hm (by rw [h2]; exact hn) hw, h2, h3, by rw [hσ _ hw]; exact h4⟩

theorem hasIO_up (e : Extra A B w P s sp) {p i o : Nat} (hp : p ≠ w)
    (hb : p = P → (body (B.ops p)).isSome = true) (h : HasIO A p i o) :
    HasIO B p i o := by
  by_cases hP : p = P
  · subst hP; exact (e.io (hb rfl) i o).1 h
  · unfold HasIO; rw [e.kids p hP hp]; exact h

theorem hasIO_down (e : Extra A B w P s sp) {p i o : Nat} (hp : p ≠ w)
    (hb : p = P → (body (B.ops p)).isSome = true) (h : HasIO B p i o) :
    HasIO A p i o := by
  by_cases hP : p = P
  · subst hP; exact (e.io (hb rfl) i o).2 h
  · unfold HasIO; rw [← e.kids p hP hp]; exact h

theorem mem_iff (e : Extra A B w P s sp) {p n : Nat} (hp : p ≠ w) (hn : n ≠ w) :
    n ∈ B.children p ↔ n ∈ A.children p := by
  by_cases hP : p = P
  · subst hP; rw [e.mem]; simp [hn]
  · rw [e.kids p hP hp]

theorem in_home (e : Extra A B w P s sp) {p : Nat} (hp : p ≠ w) (h : w ∈ B.children p) : p = P := by
  by_cases hP : p = P
  · exact hP
  · rw [e.kids p hP hp] at h; exact absurd h (e.absent p)

theorem hasIO_mem {g : Hugr Ops.Op Meta} {p i o : Nat} (h : HasIO g p i o) :
    i ∈ g.children p ∧ o ∈ g.children p := by
  obtain ⟨rest, h⟩ := h
  rw [h]; simp

theorem region_of (e : Extra A B w P s sp) {p : Nat} (hp : p ≠ w)
    (h : (body (A.ops p)).isSome = true) : p = P → (body (B.ops p)).isSome = true := fun _ => by
  rw [e.ops p hp]; exact h

end Extra

/-- What is to be run with the extra node. -/
def WithExtra (B : Hugr Ops.Op Meta) (S : Sem W E) (w P : Nat) : Task W → Prop
  | .graph ρ p vals outs σ => p ≠ w → (p = P → (body (B.ops p)).isSome = true) →
      ∀ ρ', EqOff w ρ ρ' → ∃ σ', EqOff w σ σ' ∧ Runs B S (.graph ρ' p vals outs σ')
  | .node ρ n ins outs => n ≠ w → ∀ ρ', EqOff w ρ ρ' → Runs B S (.node ρ' n ins outs)
  | .loop ρ n ins outs => n ≠ w → ∀ ρ', EqOff w ρ ρ' → Runs B S (.loop ρ' n ins outs)
  | .blocks ρ b ins outs => b ≠ w → ∀ ρ', EqOff w ρ ρ' → Runs B S (.blocks ρ' b ins outs)

/-- What runs without the extra node also runs with it. -/
theorem extra_up (e : Extra A B w P s sp) (x : Passes A B S w P s sp) {t : Task W} (hr : Runs A S t) :
    WithExtra B S w P t := by
  induction hr with
  | @graph ρ σ p i o vals res ins outs h1 h2 h3 h4 h5 h6 h7 h8 _ h10 ih =>
    intro hp hb ρ' hρ
    have hi : i ≠ w := fun h => e.absent p (h ▸ (Extra.hasIO_mem h1).1)
    have ho : o ≠ w := fun h => e.absent p (h ▸ (Extra.hasIO_mem h1).2)
    have hin : ∀ {n}, n ≠ w → Inner B p i o n → Inner A p i o n := fun hn h =>
      ⟨(e.mem_iff hp hn).1 h.1, h.2⟩
    have hne : ∀ n, n ∈ A.children p → n ≠ w := fun n hn h => e.absent p (h ▸ hn)
    by_cases hP : p = P
    · subst hP
      obtain ⟨wi, wo, a1, a2, a3, a4⟩ := x.able σ i o h1 (by
        intro n hn hni
        by_cases hno : n = o
        · subst hno; exact ⟨res, h10⟩
        · exact ⟨ins n, h6 n ⟨hn, hni, hno⟩⟩)
      let σ' : Wires W := fun n => if n = w then outWires wo else σ n
      have hσ : EqOff w σ σ' := fun n hn => by simp [σ', hn]
      have hσw : σ' w = outWires wo := by simp [σ']
      have hv : ∀ n, n ∈ B.children p → (∃ l ∈ B.links, Matters B l ∧ l.src = w) →
          σ' w 0 = σ s sp := by
        rintro n _ ⟨l, l1, l2, l3⟩
        rw [hσw]; exact a4 l l1 l2 l3
      refine ⟨σ', hσ, .graph (ins := fun n => if n = w then wi else ins n)
        (outs := fun n => if n = w then wo else outs n) (e.hasIO_up hp hb h1) ?_ ?_ ?_ ?_ ?_ ?_ ?_ ?_ ?_⟩
      · intro n hn
        have hnw : n ≠ w := fun h => hn ((e.mem n).2 (.inr h))
        rw [← hσ n hnw, ← hρ n hnw]
        exact h2 n fun h => hn ((e.mem n).2 (.inl h))
      · rw [← hσ i hi]; exact h3
      · rw [e.ops i hi]; exact h4
      · rw [← hσ o ho]; exact h5
      · intro n hn
        by_cases hnw : n = w
        · subst hnw; simp only [if_pos]; exact a2 σ' hσ
        · simp only [if_neg hnw]
          exact e.ready_up hσ hnw (hv n) (h6 n (hin hnw hn))
      · intro n hn
        by_cases hnw : n = w
        · subst hnw; simp only [if_pos]; exact hσw
        · simp only [if_neg hnw]
          rw [← hσ n hnw]; exact h7 n (hin hnw hn)
      · intro n hn
        by_cases hnw : n = w
        · subst hnw; simp only [if_pos]; exact a1
        · simp only [if_neg hnw]
          rw [e.ops n hnw]; exact h8 n (hin hnw hn)
      · intro n hn
        by_cases hnw : n = w
        · subst hnw; simp only [if_pos]; exact a3 _
        · simp only [if_neg hnw]
          exact ih n (hin hnw hn) hnw σ' hσ
      · exact e.ready_up hσ ho (hv o) h10
    · have hw : w ∉ B.children p := fun h => hP (e.in_home hp h)
      let σ' : Wires W := fun n => if n = w then ρ' w else σ n
      have hσ : EqOff w σ σ' := fun n hn => by simp [σ', hn]
      have hσw : σ' w = ρ' w := by simp [σ']
      have hno : ∀ n, n ∈ A.children p → n ∉ B.children P := fun n hn h =>
        hP (e.home p n h ((e.mem_iff hp (hne n hn)).2 hn))
      refine ⟨σ', hσ, .graph (ins := ins) (outs := outs) (e.hasIO_up hp hb h1) ?_ ?_ ?_ ?_ ?_ ?_ ?_ ?_ ?_⟩
      · intro n hn
        by_cases hnw : n = w
        · rw [hnw, hσw]
        · rw [← hσ n hnw, ← hρ n hnw]
          exact h2 n fun h => hn ((e.mem_iff hp hnw).2 h)
      · rw [← hσ i hi]; exact h3
      · rw [e.ops i hi]; exact h4
      · rw [← hσ o ho]; exact h5
      · intro n hn
        have hnw : n ≠ w := fun h => hw (h ▸ hn.1)
        exact e.ready_up hσ hnw (fun h => absurd h (hno n (hin hnw hn).1)) (h6 n (hin hnw hn))
      · intro n hn
        have hnw : n ≠ w := fun h => hw (h ▸ hn.1)
        rw [← hσ n hnw]; exact h7 n (hin hnw hn)
      · intro n hn
        have hnw : n ≠ w := fun h => hw (h ▸ hn.1)
        rw [e.ops n hnw]; exact h8 n (hin hnw hn)
      · intro n hn
        have hnw : n ≠ w := fun h => hw (h ▸ hn.1)
        exact ih n (hin hnw hn) hnw σ' hσ
      · exact e.ready_up hσ ho (fun h => absurd h (hno o (Extra.hasIO_mem h1).2)) h10
  | leaf h1 => intro hn ρ' _; exact .leaf (e.leaf_up hn h1)
  | const h1 => intro hn ρ' _; exact .const (by rw [e.ops _ hn]; exact h1)
  | dfg h1 _ ih =>
    intro hn ρ' hρ
    obtain ⟨σ', _, h⟩ := ih hn (e.region_of hn (by rw [h1]; rfl)) ρ' hρ
    exact .dfg (by rw [e.ops _ hn]; exact h1) h
  | @cond _ _ n c _ _ _ _ _ _ _ _ h1 h2 h3 h4 _ ih =>
    intro hn ρ' hρ
    have hP : n ≠ P := fun h => e.region _ _ _ (h ▸ (e.ops n hn).trans h1)
    have hc : c ≠ w := fun h => e.absent n (h ▸ List.mem_of_getElem? h2)
    obtain ⟨σ', _, h⟩ := ih hc (fun h => h ▸ e.case n _ _ _ ((e.ops n hn).trans h1)
      (by rw [e.kids n hP hn, ← h]; exact List.mem_of_getElem? h2)) ρ' hρ
    exact .cond (by rw [e.ops _ hn]; exact h1) (by rw [e.kids n hP hn]; exact h2) h3 h4 h
  | tailLoop h1 _ ih => intro hn ρ' hρ; exact .tailLoop (by rw [e.ops _ hn]; exact h1) (ih hn ρ' hρ)
  | again h1 h2 _ _ ih1 ih2 =>
    intro hn ρ' hρ
    obtain ⟨σ', _, h⟩ := ih1 hn (e.region_of hn (by rw [h1]; rfl)) ρ' hρ
    exact .again (by rw [e.ops _ hn]; exact h1) h2 h (ih2 hn ρ' hρ)
  | done h1 h2 _ ih =>
    intro hn ρ' hρ
    obtain ⟨σ', _, h⟩ := ih hn (e.region_of hn (by rw [h1]; rfl)) ρ' hρ
    exact .done (by rw [e.ops _ hn]; exact h1) h2 h
  | @cfg _ n entry _ _ _ _ h1 h2 _ ih =>
    intro hn ρ' hρ
    have hc : entry ≠ w := fun h => e.absent n (by rw [h2, h]; simp)
    have h1' := (e.ops n hn).trans h1
    by_cases hP : n = P
    · subst hP
      obtain ⟨r, hr⟩ := (e.head _ h1' entry).1 ⟨_, h2⟩
      exact .cfg h1' hr (ih hc ρ' hρ)
    · exact .cfg h1' (by rw [e.kids n hP hn]; exact h2) (ih hc ρ' hρ)
  | @jump _ _ b _ _ _ _ _ _ _ _ _ _ _ _ l h1 h2 h3 h4 h5 h6 h7 _ _ ih1 ih2 =>
    intro hn ρ' hρ
    obtain ⟨σ', hσ, h⟩ := ih1 hn (e.region_of hn (by rw [h1]; rfl)) ρ' hρ
    have hm : Matters A l := .inr (.inr ⟨_, _, _, by rw [h5]; exact h1, by
      rw [h6]; exact (List.getElem?_eq_some_iff.1 h2).1⟩)
    rcases e.forth l h4 hm with hl | ⟨_, _, _, _, hl, _⟩
    · exact .jump (by rw [e.ops _ hn]; exact h1) h2 h3 hl h5 h6
        (by rw [e.ops _ (e.clean l h4).2]; exact h7) h (ih2 (e.clean l h4).2 σ' hσ)
    · exact absurd (h5 ▸ h1) (hl _ _ _)
  | @exit _ _ b _ _ _ _ _ _ _ _ _ l h1 h2 h3 h4 h5 h6 h7 _ ih =>
    intro hn ρ' hρ
    obtain ⟨σ', hσ, h⟩ := ih hn (e.region_of hn (by rw [h1]; rfl)) ρ' hρ
    have hm : Matters A l := .inr (.inr ⟨_, _, _, by rw [h5]; exact h1, by
      rw [h6]; exact (List.getElem?_eq_some_iff.1 h2).1⟩)
    rcases e.forth l h4 hm with hl | ⟨_, _, _, _, hl, _⟩
    · exact .exit (by rw [e.ops _ hn]; exact h1) h2 h3 hl h5 h6
        (by rw [e.ops _ (e.clean l h4).2]; exact h7) h
    · exact absurd (h5 ▸ h1) (hl _ _ _)
  | @call _ _ n f _ _ _ h1 h2 h3 _ ih =>
    intro hn ρ' _
    have hf : f ≠ w := fun h => e.nodefn (h ▸ h2)
    obtain ⟨σ', _, h⟩ := ih hf (e.region_of hf (by obtain ⟨_, _, h2⟩ := h2; rw [h2]; rfl)) noWires (fun _ _ => rfl)
    exact .call (e.calls_up hn h1) ((e.defn f).1 h2) (by rw [e.ops n hn]; exact h3) h

/-- What is to be run without the extra node. -/
def WithoutExtra (A B : Hugr Ops.Op Meta) (S : Sem W E) (w P : Nat) : Task W → Prop
  | .graph ρ' p vals outs σ' => p ≠ w → (p = P → (body (B.ops p)).isSome = true) →
      ∀ ρ, EqOff w ρ ρ' → ∃ σ, EqOff w σ σ' ∧ Runs A S (.graph ρ p vals outs σ)
  | .node ρ' n ins outs => n ≠ w → ∀ ρ, EqOff w ρ ρ' → Runs A S (.node ρ n ins outs)
  | .loop ρ' n ins outs => n ≠ w → ∀ ρ, EqOff w ρ ρ' → Runs A S (.loop ρ n ins outs)
  | .blocks ρ' b ins outs => b ≠ w → ∀ ρ, EqOff w ρ ρ' → Runs A S (.blocks ρ b ins outs)

/-- What runs with the extra node also runs without it. -/
theorem extra_down (e : Extra A B w P s sp) (x : Passes A B S w P s sp) {t : Task W}
    (hr : Runs B S t) : WithoutExtra A B S w P t := by
  induction hr with
  | @graph ρ' σ' p i o vals res ins outs h1 h2 h3 h4 h5 h6 h7 h8 h9 h10 ih =>
    intro hp hb ρ hρ
    have h1' := e.hasIO_down hp hb h1
    have hi : i ≠ w := fun h => e.absent p (h ▸ (Extra.hasIO_mem h1').1)
    have ho : o ≠ w := fun h => e.absent p (h ▸ (Extra.hasIO_mem h1').2)
    have hne : ∀ n, n ∈ A.children p → n ≠ w := fun n hn h => e.absent p (h ▸ hn)
    have hin : ∀ {n}, Inner A p i o n → n ≠ w ∧ Inner B p i o n := fun {n} h =>
      ⟨hne n h.1, (e.mem_iff hp (hne n h.1)).2 h.1, h.2⟩
    have hv : ∀ n, n ∈ A.children p → n ∈ B.children P →
        (∃ l ∈ B.links, Matters B l ∧ l.src = w) → σ' w 0 = σ' s sp := by
      rintro n hn hnP ⟨l, l1, l2, l3⟩
      have hP : p = P := e.home p n hnP ((e.mem_iff hp (hne n hn)).2 hn)
      subst hP
      have hw : Inner B p i o w := ⟨(e.mem w).2 (.inr rfl), fun h => hi h.symm, fun h => ho h.symm⟩
      rw [h7 w hw]
      exact x.same σ' _ _ (h6 w hw) (h9 w hw) l l1 l2 l3
    let σ : Wires W := fun n => if n = w then ρ w else σ' n
    have hσ : EqOff w σ σ' := fun n hn => by simp [σ, hn]
    have hσw : σ w = ρ w := by simp [σ]
    refine ⟨σ, hσ, .graph (ins := ins) (outs := outs) h1' ?_ ?_ ?_ ?_ ?_ ?_ ?_ ?_ ?_⟩
    · intro n hn
      by_cases hnw : n = w
      · rw [hnw, hσw]
      · rw [hσ n hnw, hρ n hnw]
        exact h2 n fun h => hn ((e.mem_iff hp hnw).1 h)
    · rw [hσ i hi]; exact h3
    · rw [← e.ops i hi]; exact h4
    · rw [hσ o ho]; exact h5
    · intro n hn
      obtain ⟨hnw, hb⟩ := hin hn
      exact e.ready_down hσ hnw (hv n hn.1) (h6 n hb)
    · intro n hn
      obtain ⟨hnw, hb⟩ := hin hn
      rw [hσ n hnw]; exact h7 n hb
    · intro n hn
      obtain ⟨hnw, hb⟩ := hin hn
      rw [← e.ops n hnw]; exact h8 n hb
    · intro n hn
      obtain ⟨hnw, hb⟩ := hin hn
      exact ih n hb hnw σ hσ
    · exact e.ready_down hσ ho (hv o (Extra.hasIO_mem h1').2) h10
  | leaf h1 => intro hn ρ _; exact .leaf (e.leaf_down hn h1)
  | const h1 => intro hn ρ _; exact .const (by rw [← e.ops _ hn]; exact h1)
  | dfg h1 _ ih =>
    intro hn ρ hρ
    obtain ⟨σ, _, h⟩ := ih hn (fun _ => by rw [h1]; rfl) ρ hρ
    exact .dfg (by rw [← e.ops _ hn]; exact h1) h
  | @cond _ _ n c _ _ _ _ _ _ _ _ h1 h2 h3 h4 _ ih =>
    intro hn ρ hρ
    have hP : n ≠ P := fun h => e.region _ _ _ (h ▸ h1)
    have h2' := h2
    rw [e.kids n hP hn] at h2
    have hc : c ≠ w := fun h => e.absent n (h ▸ List.mem_of_getElem? h2)
    obtain ⟨σ, _, h⟩ := ih hc (fun h => h ▸ e.case n _ _ _ h1 (h ▸ List.mem_of_getElem? h2')) ρ hρ
    exact .cond (by rw [← e.ops _ hn]; exact h1) h2 h3 h4 h
  | tailLoop h1 _ ih => intro hn ρ hρ; exact .tailLoop (by rw [← e.ops _ hn]; exact h1) (ih hn ρ hρ)
  | again h1 h2 _ _ ih1 ih2 =>
    intro hn ρ hρ
    obtain ⟨σ, _, h⟩ := ih1 hn (fun _ => by rw [h1]; rfl) ρ hρ
    exact .again (by rw [← e.ops _ hn]; exact h1) h2 h (ih2 hn ρ hρ)
  | done h1 h2 _ ih =>
    intro hn ρ hρ
    obtain ⟨σ, _, h⟩ := ih hn (fun _ => by rw [h1]; rfl) ρ hρ
    exact .done (by rw [← e.ops _ hn]; exact h1) h2 h
  | @cfg _ n entry _ _ _ _ h1 h2 _ ih =>
    intro hn ρ hρ
    have h3 : ∃ r, A.children n = entry :: r := by
      by_cases hP : n = P
      · subst hP; exact (e.head _ h1 entry).2 ⟨_, h2⟩
      · exact ⟨_, by rw [← e.kids n hP hn]; exact h2⟩
    obtain ⟨r, h2⟩ := h3
    have hc : entry ≠ w := fun h => e.absent n (by rw [h2, h]; simp)
    exact .cfg (by rw [← e.ops _ hn]; exact h1) h2 (ih hc ρ hρ)
  | @jump _ _ b _ _ _ _ _ _ _ _ _ _ _ _ l h1 h2 h3 h4 h5 h6 h7 _ _ ih1 ih2 =>
    intro hn ρ hρ
    obtain ⟨σ, hσ, h⟩ := ih1 hn (fun _ => by rw [h1]; rfl) ρ hρ
    have hm : Matters B l := .inr (.inr ⟨_, _, _, by rw [h5]; exact h1, by
      rw [h6]; exact (List.getElem?_eq_some_iff.1 h2).1⟩)
    have hd := e.noflow l h4 hn h5 h1
    exact .jump (by rw [← e.ops _ hn]; exact h1) h2 h3 (e.back l h4 hm hd (h5 ▸ hn)) h5 h6
      (by rw [← e.ops _ hd]; exact h7) h (ih2 hd σ hσ)
  | @exit _ _ b _ _ _ _ _ _ _ _ _ l h1 h2 h3 h4 h5 h6 h7 _ ih =>
    intro hn ρ hρ
    obtain ⟨σ, hσ, h⟩ := ih hn (fun _ => by rw [h1]; rfl) ρ hρ
    have hm : Matters B l := .inr (.inr ⟨_, _, _, by rw [h5]; exact h1, by
      rw [h6]; exact (List.getElem?_eq_some_iff.1 h2).1⟩)
    have hd := e.noflow l h4 hn h5 h1
    exact .exit (by rw [← e.ops _ hn]; exact h1) h2 h3 (e.back l h4 hm hd (h5 ▸ hn)) h5 h6
      (by rw [← e.ops _ hd]; exact h7) h
  | @call _ _ n f _ _ _ h1 h2 h3 _ ih =>
    intro hn ρ _
    have hf : f ≠ w := fun h => e.nodefn ((e.defn w).2 (h ▸ h2))
    obtain ⟨σ, _, h⟩ := ih hf (fun _ => by obtain ⟨_, _, h2⟩ := h2; rw [h2]; rfl) noWires (fun _ _ => rfl)
    exact .call (e.calls_down hn h1) ((e.defn f).2 h2) (by rw [← e.ops n hn]; exact h3) h

/-- The extra node does not change what functions return. -/
theorem extra_returns (e : Extra A B w P s sp) (x : Passes A B S w P s sp) {f : Nat}
    {args outs : List (Val W)} : Returns A S f args outs ↔ Returns B S f args outs := by
  constructor
  · rintro ⟨h1, σ, h2⟩
    have hf : f ≠ w := fun h => e.nodefn (h ▸ h1)
    obtain ⟨σ', _, h⟩ := extra_up e x h2 hf (e.region_of hf (by obtain ⟨_, _, h⟩ := h1; rw [h]; rfl)) noWires (fun _ _ => rfl)
    exact ⟨(e.defn f).1 h1, σ', h⟩
  · rintro ⟨h1, σ, h2⟩
    have h1' := (e.defn f).2 h1
    have hf : f ≠ w := fun h => e.nodefn (h ▸ h1')
    obtain ⟨σ', _, h⟩ := extra_down e x h2 hf (fun _ => by obtain ⟨_, _, h⟩ := h1; rw [h]; rfl) noWires (fun _ _ => rfl)
    exact ⟨h1', σ', h⟩

end Verif.Patch
