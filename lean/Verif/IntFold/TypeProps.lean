import Verif.IntFold.CmpProps
/-!
# C15 (continued): the constants used and the types returned by integer folding
-/

namespace Verif.IntFold

/-- The operations with two integer inputs. -/
def twoInputOps : List IntOp :=
  [.ieq, .ine, .ilt_u, .ilt_s, .igt_u, .igt_s, .ile_u, .ile_s, .ige_u, .ige_s, .imax_u, .imax_s,
   .imin_u, .imin_s, .iadd, .isub, .imul, .ipow, .idivmod_checked_u, .idivmod_u,
   .idivmod_checked_s, .idivmod_s, .idiv_checked_u, .idiv_u, .imod_checked_u, .imod_u,
   .idiv_checked_s, .idiv_s, .imod_checked_s, .imod_s, .iand, .ior, .ixor, .ishl, .ishr, .irotl,
   .irotr]

/-- The operations with one integer input and one type argument. -/
def oneInputOps : List IntOp := [.ineg, .iabs, .inot, .iu_to_s, .is_to_u]

/-- The width conversions. -/
def convOps : List IntOp := [.iwiden_u, .iwiden_s, .inarrow_u, .inarrow_s]

theorem allOps (op : IntOp) : op ∈ twoInputOps ∨ op ∈ oneInputOps ∨ op ∈ convOps := by
  cases op <;> decide

/-- Every integer constant in the list is one the API can build. -/
def ValidConsts (cs : Consts) : Prop := ∀ p c, (p, IVal.int c) ∈ cs → c.Valid

theorem getLogWidth_mod {n w : Nat} (h : n % 256 = w) (hw : w ≤ 6) :
    getLogWidth (.nat n) = some w := by
  have : n % 256 < 7 := by omega
  simp [getLogWidth, isValidLogWidth, h]; omega

theorem getSingle_some {cs : Consts} {c : ConstInt} (h : getSingle cs = some c) :
    ∃ p, cs = [(p, .int c)] := by
  unfold getSingle at h
  split at h
  · cases h; exact ⟨_, rfl⟩
  · cases h

theorem getPair_some {cs : Consts} {c d : ConstInt} (h : getPair cs = some (c, d)) :
    ∃ p q, cs = [(p, .int c), (q, .int d)] := by
  unfold getPair at h
  split at h
  · cases h; exact ⟨_, _, rfl⟩
  · cases h

theorem withPair_cases (args : List TArg) (cs : Consts) (k : Nat → ConstInt → ConstInt → FoldResult) :
    withPair args cs k = .ok none ∨
    ∃ n p q w c d, args = [.nat n] ∧ n % 256 = w ∧ w ≤ 6 ∧ cs = [(p, .int c), (q, .int d)] ∧
      withPair args cs k = k w c d := by
  unfold withPair
  split
  · rename_i arg
    cases h : getLogWidth arg with
    | none => exact .inl rfl
    | some w =>
      obtain ⟨n, rfl, hn, hw⟩ := getLogWidth_some h
      cases hp : getPair cs with
      | none => exact .inl rfl
      | some cd =>
        obtain ⟨c, d⟩ := cd
        obtain ⟨p, q, rfl⟩ := getPair_some hp
        exact .inr ⟨n, p, q, w, c, d, rfl, hn, hw, rfl, rfl⟩
  · exact .inl rfl

theorem withOne_cases (args : List TArg) (cs : Consts) (k : Nat → ConstInt → FoldResult) :
    withOne args cs k = .ok none ∨
    ∃ n p w c, args = [.nat n] ∧ n % 256 = w ∧ w ≤ 6 ∧ cs = [(p, .int c)] ∧
      withOne args cs k = k w c := by
  unfold withOne
  split
  · rename_i arg
    cases h : getLogWidth arg with
    | none => exact .inl rfl
    | some w =>
      obtain ⟨n, rfl, hn, hw⟩ := getLogWidth_some h
      cases hp : getSingle cs with
      | none => exact .inl rfl
      | some c =>
        obtain ⟨p, rfl⟩ := getSingle_some hp
        exact .inr ⟨n, p, w, c, rfl, hn, hw, rfl, rfl⟩
  · exact .inl rfl

theorem withWiden_cases (args : List TArg) (cs : Consts) (k : Nat → Nat → ConstInt → FoldResult) :
    withWiden args cs k = .ok none ∨
    ∃ n0 n1 p w0 w1 c, args = [.nat n0, .nat n1] ∧ n0 % 256 = w0 ∧ n1 % 256 = w1 ∧ w0 ≤ 6 ∧
      w1 ≤ 6 ∧ cs = [(p, .int c)] ∧ withWiden args cs k = k w0 w1 c := by
  unfold withWiden
  split
  · rename_i arg0 arg1
    cases h0 : getLogWidth arg0 with
    | none => exact .inl rfl
    | some w0 =>
      cases h1 : getLogWidth arg1 with
      | none => exact .inl rfl
      | some w1 =>
        obtain ⟨n0, rfl, hn0, hw0⟩ := getLogWidth_some h0
        obtain ⟨n1, rfl, hn1, hw1⟩ := getLogWidth_some h1
        cases hp : getSingle cs with
        | none => exact .inl rfl
        | some c =>
          obtain ⟨p, rfl⟩ := getSingle_some hp
          exact .inr ⟨n0, n1, p, w0, w1, c, rfl, hn0, hn1, hw0, hw1, rfl, rfl⟩
  · exact .inl rfl

/-- The folder of each two-input operation is one continuation after the common prologue. -/
theorem fold_withPair (m : Mode) (op : IntOp) (h : op ∈ twoInputOps) :
    ∃ k, ∀ args cs, fold m op args cs = withPair args cs k := by
  simp only [twoInputOps, List.mem_cons, List.not_mem_nil, or_false] at h
  rcases h with rfl | rfl | rfl | rfl | rfl | rfl | rfl | rfl | rfl | rfl | rfl | rfl | rfl | rfl |
    rfl | rfl | rfl | rfl | rfl | rfl | rfl | rfl | rfl | rfl | rfl | rfl | rfl | rfl | rfl | rfl |
    rfl | rfl | rfl | rfl | rfl | rfl | rfl <;> exact ⟨_, fun _ _ => rfl⟩

theorem fold_withOne (m : Mode) (op : IntOp) (h : op ∈ oneInputOps) :
    ∃ k, ∀ args cs, fold m op args cs = withOne args cs k := by
  simp only [oneInputOps, List.mem_cons, List.not_mem_nil, or_false] at h
  rcases h with rfl | rfl | rfl | rfl | rfl <;> exact ⟨_, fun _ _ => rfl⟩

theorem fold_withWiden (m : Mode) (op : IntOp) (h : op ∈ convOps) :
    ∃ k, ∀ args cs, fold m op args cs = withWiden args cs k := by
  simp only [convOps, List.mem_cons, List.not_mem_nil, or_false] at h
  rcases h with rfl | rfl | rfl | rfl <;> exact ⟨_, fun _ _ => rfl⟩

theorem width_mismatch2 (m : Mode) (op : IntOp) (h : op ∈ twoInputOps) (w : Nat) (c d : ConstInt)
    (p q n : Nat) (hn : n % 256 = w) (hw : w ≤ 6) (hc : c.Valid)
    (hne : c.logWidth ≠ w ∨ d.logWidth ≠ w) :
    fold m op [.nat n] [(p, .int c), (q, .int d)] = .ok none := by
  have hl : getLogWidth (.nat n) = some w := getLogWidth_mod hn (by omega)
  have hv := valueS_eq m hc.1 hc.2
  have hv' : valueS m c = .ok (signedOf c.logWidth c.value) := hv
  have hne' : c.logWidth ≠ w ∨ d.logWidth ≠ w ∨ valueU d = 0 := by
    rcases hne with h | h
    · exact .inl h
    · exact .inr (.inl h)
  simp only [twoInputOps, List.mem_cons, List.not_mem_nil, or_false] at h
  rcases h with rfl | rfl | rfl | rfl | rfl | rfl | rfl | rfl | rfl | rfl | rfl | rfl | rfl | rfl |
    rfl | rfl | rfl | rfl | rfl | rfl | rfl | rfl | rfl | rfl | rfl | rfl | rfl | rfl | rfl | rfl |
    rfl | rfl | rfl | rfl | rfl | rfl | rfl <;>
  simp only [fold, cmpU, cmpS, binU, binS, withPair, hl, getPair, sameWidth, if_pos hne, hv',
    andThen_ok, if_pos hne']

/-- A two-input operation is folded only on two integer constants of exactly the width named by the
type argument, used in the order in which they are listed; the result then depends only on them.
(The type argument is read modulo 256, which makes no difference for the legal arguments 0 to 6.) -/
theorem C15_two_inputs_used (m : Mode) (op : IntOp) (hop : op ∈ twoInputOps) (args : List TArg)
    (cs : Consts) (hcs : ValidConsts cs) :
    fold m op args cs = .ok none ∨
    ∃ n p q w a b, args = [.nat n] ∧ n % 256 = w ∧ w ≤ 6 ∧ a < card w ∧ b < card w ∧
      cs = [(p, .int ⟨w, a⟩), (q, .int ⟨w, b⟩)] ∧ fold m op args cs = fold2 m op w a b := by
  obtain ⟨k, hk⟩ := fold_withPair m op hop
  rw [hk]
  rcases withPair_cases args cs k with h | ⟨n, p, q, w, c, d, rfl, hn, hw, rfl, hr⟩
  · exact .inl h
  have hc : c.Valid := hcs p c (by simp)
  have hd : d.Valid := hcs q d (by simp)
  by_cases hne : c.logWidth ≠ w ∨ d.logWidth ≠ w
  · left
    rw [← hk]
    exact width_mismatch2 m op hop w c d p q n hn hw hc hne
  · right
    have e1 : c.logWidth = w := by by_contra h; exact hne (.inl h)
    have e2 : d.logWidth = w := by by_contra h; exact hne (.inr h)
    obtain ⟨cw, a⟩ := c
    obtain ⟨dw, b⟩ := d
    simp only at e1 e2
    subst e1
    subst e2
    refine ⟨n, p, q, _, a, b, rfl, hn, hw, hc.2, hd.2, rfl, ?_⟩
    rw [hr]
    unfold fold2
    rw [hk]
    simp only [withPair, getLogWidth_nat hw, getPair]

/-- A one-input operation is folded only on one integer constant of exactly the width named by the
type argument. -/
theorem C15_one_input_used (m : Mode) (op : IntOp) (hop : op ∈ oneInputOps) (args : List TArg)
    (cs : Consts) (hcs : ValidConsts cs) :
    fold m op args cs = .ok none ∨
    ∃ n p w a, args = [.nat n] ∧ n % 256 = w ∧ w ≤ 6 ∧ a < card w ∧ cs = [(p, .int ⟨w, a⟩)] ∧
      fold m op args cs = fold1 m op w a := by
  obtain ⟨k, hk⟩ := fold_withOne m op hop
  rw [hk]
  rcases withOne_cases args cs k with h | ⟨n, p, w, c, rfl, hn, hw, rfl, hr⟩
  · exact .inl h
  have hc : c.Valid := hcs p c (by simp)
  by_cases hne : c.logWidth ≠ w
  · left
    have hl : getLogWidth (.nat n) = some w := getLogWidth_mod hn (by omega)
    have hv : valueS m c = .ok (signedOf c.logWidth c.value) := valueS_eq m hc.1 hc.2
    rw [← hk]
    simp only [oneInputOps, List.mem_cons, List.not_mem_nil, or_false] at hop
    rcases hop with rfl | rfl | rfl | rfl | rfl <;>
      simp only [fold, unU, withOne, hl, getSingle, hv, andThen_ok, if_neg hne]
  · right
    have e1 : c.logWidth = w := by by_contra h; exact hne h
    obtain ⟨cw, a⟩ := c
    simp only at e1
    subst e1
    refine ⟨n, p, _, a, rfl, hn, hw, hc.2, rfl, ?_⟩
    rw [hr]
    unfold fold1
    rw [hk]
    simp only [withOne, getLogWidth_nat hw, getSingle]

/-- A conversion is folded only on one constant of the source width, from a source width and to a
target width in the direction the operation allows. -/
theorem C15_conversion_used (m : Mode) (op : IntOp) (hop : op ∈ convOps) (args : List TArg)
    (cs : Consts) (hcs : ValidConsts cs) :
    fold m op args cs = .ok none ∨
    ∃ n0 n1 p w0 w1 a, args = [.nat n0, .nat n1] ∧ n0 % 256 = w0 ∧ n1 % 256 = w1 ∧ w0 ≤ 6 ∧
      w1 ≤ 6 ∧ a < card w0 ∧ cs = [(p, .int ⟨w0, a⟩)] ∧
      (op = .iwiden_u ∨ op = .iwiden_s → w0 ≤ w1) ∧
      (op = .inarrow_u ∨ op = .inarrow_s → w1 ≤ w0) ∧
      fold m op args cs = foldConv m op w0 w1 a := by
  obtain ⟨k, hk⟩ := fold_withWiden m op hop
  have hred : ∀ w0 w1 n0 n1 p c, n0 % 256 = w0 → n1 % 256 = w1 → w0 ≤ 6 → w1 ≤ 6 →
      fold m op [.nat n0, .nat n1] [(p, .int c)] = k w0 w1 c := by
    intro w0 w1 n0 n1 p c h0 h1 l0 l1
    have hl0 : getLogWidth (.nat n0) = some w0 := getLogWidth_mod h0 (by omega)
    have hl1 : getLogWidth (.nat n1) = some w1 := getLogWidth_mod h1 (by omega)
    rw [hk]
    simp only [withWiden, hl0, hl1, getSingle]
  rw [hk]
  rcases withWiden_cases args cs k with h | ⟨n0, n1, p, w0, w1, c, rfl, hn0, hn1, hw0, hw1, rfl, hr⟩
  · exact .inl h
  have hc : c.Valid := hcs p c (by simp)
  have hl0 : getLogWidth (.nat n0) = some w0 := getLogWidth_mod hn0 (by omega)
  have hl1 : getLogWidth (.nat n1) = some w1 := getLogWidth_mod hn1 (by omega)
  have hop' := hop
  simp only [convOps, List.mem_cons, List.not_mem_nil, or_false] at hop'
  by_cases hbad : c.logWidth ≠ w0 ∨ (op = .iwiden_u ∨ op = .iwiden_s) ∧ ¬ w0 ≤ w1 ∨
      (op = .inarrow_u ∨ op = .inarrow_s) ∧ ¬ w1 ≤ w0
  · left
    rw [← hk]
    rcases hop' with rfl | rfl | rfl | rfl
    · simp only [reduceCtorEq, or_false, true_and, false_and] at hbad
      simp only [fold, withWiden, hl0, hl1, getSingle]
      rw [if_pos (by omega)]
    · simp only [reduceCtorEq, false_or, true_and, false_and, or_false] at hbad
      simp only [fold, withWiden, hl0, hl1, getSingle]
      rw [if_pos (by omega)]
    · simp only [reduceCtorEq, false_or, true_and, false_and, or_false] at hbad
      simp only [fold, withWiden, hl0, hl1, getSingle]
      rw [if_neg (by omega)]
    · simp only [reduceCtorEq, false_or, true_and, false_and] at hbad
      simp only [fold, withWiden, hl0, hl1, getSingle]
      rw [if_neg (by omega)]
  · right
    have e1 : c.logWidth = w0 := by by_contra h; exact hbad (.inl h)
    have e2 : op = .iwiden_u ∨ op = .iwiden_s → w0 ≤ w1 := by
      intro ho; by_contra h; exact hbad (.inr (.inl ⟨ho, h⟩))
    have e3 : op = .inarrow_u ∨ op = .inarrow_s → w1 ≤ w0 := by
      intro ho; by_contra h; exact hbad (.inr (.inr ⟨ho, h⟩))
    obtain ⟨cw, a⟩ := c
    simp only at e1
    subst e1
    refine ⟨n0, n1, p, _, w1, a, rfl, hn0, hn1, hw0, hw1, hc.2, rfl, e2, e3, ?_⟩
    rw [hr]
    unfold foldConv
    rw [hred _ _ _ _ 0 ⟨cw, a⟩ (Nat.mod_eq_of_lt (by omega)) (Nat.mod_eq_of_lt (by omega)) hw0 hw1]

/-! ## Types of the results -/

theorem newU_width {m : Mode} {w v : Nat} {c : ConstInt} (h : newU m w v = .ok (some c)) :
    c.logWidth = w := by
  unfold newU at h
  split at h
  · cases h
  · split at h
    · cases h1 : oneShlU8 m w with
      | panic => rw [h1] at h; cases h
      | ok x =>
        rw [h1, andThen_ok] at h
        cases h2 : shlU64 m 1 x with
        | panic => rw [h2] at h; cases h
        | ok y =>
          rw [h2, andThen_ok] at h
          split at h <;> cases h
          rfl
    · cases h; rfl

theorem newS_width {m : Mode} {w : Nat} {z : Int} {c : ConstInt} (h : newS m w z = .ok (some c)) :
    c.logWidth = w := by
  unfold newS at h
  split at h
  · cases h
  · cases h1 : oneShlU8 m w with
    | panic => rw [h1] at h; cases h
    | ok x =>
      rw [h1, andThen_ok] at h
      have store : ∀ {r : Run (Option ConstInt)},
          r = (if z ≥ 0 ∨ w = 6 then .ok (some ⟨w, asU64 z⟩)
            else (oneShlI64 m x).andThen fun p =>
              (i64 m (z + p)).andThen fun v => .ok (some ⟨w, asU64 v⟩)) →
          r = .ok (some c) → c.logWidth = w := by
        intro r hr hrc
        rw [hrc] at hr
        split at hr
        · cases hr; rfl
        · cases h2 : oneShlI64 m x with
          | panic => rw [h2] at hr; cases hr
          | ok p =>
            rw [h2, andThen_ok] at hr
            cases h3 : i64 m (z + p) with
            | panic => rw [h3] at hr; cases hr
            | ok v => rw [h3, andThen_ok] at hr; cases hr; rfl
      simp only at h
      by_cases h5 : w ≤ 5
      · rw [if_pos h5] at h
        cases h2 : oneShlI64 m (x - 1) with
        | panic => rw [h2] at h; cases h
        | ok y =>
          rw [h2, andThen_ok] at h
          by_cases h6 : z ≥ y
          · rw [if_pos h6] at h; cases h
          · rw [if_neg h6] at h
            cases h3 : i64 m (-y) with
            | panic => rw [h3] at h; cases h
            | ok l =>
              rw [h3, andThen_ok] at h
              by_cases h7 : z < l
              · rw [if_pos h7] at h; cases h
              · rw [if_neg h7] at h; exact store rfl h
      · rw [if_neg h5] at h; exact store rfl h

theorem andThen_eq_ok {α β : Type} {r : Run α} {f : α → Run β} {b : β} (h : r.andThen f = .ok b) :
    ∃ a, r = .ok a ∧ f a = .ok b := by
  cases r with
  | panic => cases h
  | ok a => exact ⟨a, rfl, h⟩

theorem unwrapInt_ok {r : Run (Option ConstInt)} {v : IVal} (h : unwrapInt r = .ok v) :
    ∃ c, r = .ok (some c) ∧ v = .int c := by
  obtain ⟨o, h1, h2⟩ := andThen_eq_ok h
  cases o with
  | none => cases h2
  | some c => cases h2; exact ⟨c, h1, rfl⟩

theorem out1_ok {v : Run IVal} {outs} (h : out1 v = .ok (some outs)) :
    ∃ x, v = .ok x ∧ outs = [(0, x)] := by
  obtain ⟨x, h1, h2⟩ := andThen_eq_ok h
  cases h2
  exact ⟨x, h1, rfl⟩

theorem out1_unwrapU {m : Mode} {w v : Nat} {outs} (h : out1 (unwrapInt (newU m w v)) = .ok (some outs)) :
    ∃ x, outs = [(0, .int ⟨w, x⟩)] := by
  obtain ⟨x, h1, rfl⟩ := out1_ok h
  obtain ⟨c, h2, rfl⟩ := unwrapInt_ok h1
  have := newU_width h2
  obtain ⟨cw, cv⟩ := c
  simp only at this
  subst this
  exact ⟨cv, rfl⟩

theorem out1_unwrapS {m : Mode} {w : Nat} {v : Int} {outs}
    (h : out1 (unwrapInt (newS m w v)) = .ok (some outs)) : ∃ x, outs = [(0, .int ⟨w, x⟩)] := by
  obtain ⟨x, h1, rfl⟩ := out1_ok h
  obtain ⟨c, h2, rfl⟩ := unwrapInt_ok h1
  have := newS_width h2
  obtain ⟨cw, cv⟩ := c
  simp only at this
  subst this
  exact ⟨cv, rfl⟩

/-- `outs` gives, on ports `0, 1, ..`, one constant of each type in `ts`. -/
def HasTypes (outs : List (Nat × IVal)) (ts : List ITy) : Prop :=
  outs.map (·.1) = List.range ts.length ∧ outs.map (·.2.ty) = ts.map some

/-- The checked divisions and remainders. -/
def checkedOps : List IntOp :=
  [.idivmod_checked_u, .idivmod_checked_s, .idiv_checked_u, .idiv_checked_s, .imod_checked_u,
   .imod_checked_s]

theorem binU_types {m : Mode} {w a b : Nat} {f} {outs}
    (h : binU m [.nat w] [(0, .int ⟨w, a⟩), (1, .int ⟨w, b⟩)] f = .ok (some outs)) (hw : w ≤ 6) :
    HasTypes outs [.int w] := by
  simp only [binU, withPair, getLogWidth_nat hw, getPair, sameWidth] at h
  rw [if_neg (by simp)] at h
  obtain ⟨v, _, h2⟩ := andThen_eq_ok h
  obtain ⟨x, rfl⟩ := out1_unwrapU h2
  exact ⟨rfl, rfl⟩

theorem binS_types {m : Mode} {w a b : Nat} {f} {outs}
    (h : binS m [.nat w] [(0, .int ⟨w, a⟩), (1, .int ⟨w, b⟩)] f = .ok (some outs)) (hw : w ≤ 6) :
    HasTypes outs [.int w] := by
  simp only [binS, withPair, getLogWidth_nat hw, getPair, sameWidth] at h
  rw [if_neg (by simp)] at h
  obtain ⟨v, _, h2⟩ := andThen_eq_ok h
  obtain ⟨v', _, h3⟩ := andThen_eq_ok h2
  obtain ⟨x, rfl⟩ := out1_unwrapS h3
  exact ⟨rfl, rfl⟩

theorem unU_types {m : Mode} {w a : Nat} {f} {outs}
    (h : unU m [.nat w] [(0, .int ⟨w, a⟩)] f = .ok (some outs)) (hw : w ≤ 6) :
    HasTypes outs [.int w] := by
  simp only [unU, withOne, getLogWidth_nat hw, getSingle, if_true] at h
  obtain ⟨v, _, h2⟩ := andThen_eq_ok h
  obtain ⟨x, rfl⟩ := out1_unwrapU h2
  exact ⟨rfl, rfl⟩

theorem cmpU_types {w a b : Nat} {f} {outs}
    (h : cmpU [.nat w] [(0, .int ⟨w, a⟩), (1, .int ⟨w, b⟩)] f = .ok (some outs)) (hw : w ≤ 6) :
    HasTypes outs [.bool] := by
  simp only [cmpU, withPair, getLogWidth_nat hw, getPair, sameWidth] at h
  rw [if_neg (by simp)] at h
  obtain ⟨x, h1, rfl⟩ := out1_ok h
  cases h1
  exact ⟨rfl, rfl⟩

theorem cmpS_types {m : Mode} {w a b : Nat} {f} {outs}
    (h : cmpS m [.nat w] [(0, .int ⟨w, a⟩), (1, .int ⟨w, b⟩)] f = .ok (some outs)) (hw : w ≤ 6) :
    HasTypes outs [.bool] := by
  simp only [cmpS, withPair, getLogWidth_nat hw, getPair, sameWidth] at h
  rw [if_neg (by simp)] at h
  obtain ⟨v, _, h2⟩ := andThen_eq_ok h
  obtain ⟨v', _, h3⟩ := andThen_eq_ok h2
  obtain ⟨x, h1, rfl⟩ := out1_ok h3
  cases h1
  exact ⟨rfl, rfl⟩

theorem fold2_types (m : Mode) (op : IntOp) (hop : op ∈ twoInputOps) (hck : op ∉ checkedOps)
    (w a b : Nat) (hw : w ≤ 6) {outs} (h : fold2 m op w a b = .ok (some outs)) :
    HasTypes outs (declaredOutputs w w op) := by
  unfold fold2 at h
  have divs : ∀ {w1 : Nat} {q r : Run (Option ConstInt)} {outs},
      (∀ c, q = .ok (some c) → c.logWidth = w1) → (∀ c, r = .ok (some c) → c.logWidth = w1) →
      out2 (unwrapInt q) (unwrapInt r) = .ok (some outs) → HasTypes outs [.int w1, .int w1] := by
    intro w1 q r outs hq hr h
    obtain ⟨x, h1, h2⟩ := andThen_eq_ok h
    obtain ⟨y, h3, h4⟩ := andThen_eq_ok h2
    obtain ⟨c, hc, rfl⟩ := unwrapInt_ok h1
    obtain ⟨d, hd, rfl⟩ := unwrapInt_ok h3
    cases h4
    have e1 := hq c hc
    have e2 := hr d hd
    obtain ⟨cw, cv⟩ := c
    obtain ⟨dw, dv⟩ := d
    simp only at e1 e2
    subst e1
    subst e2
    exact ⟨rfl, rfl⟩
  have one : ∀ {w1 x : Nat} {outs : List (Nat × IVal)}, outs = [(0, .int ⟨w1, x⟩)] →
      HasTypes outs [.int w1] := by
    intro w1 x outs h; subst h; exact ⟨rfl, rfl⟩
  simp only [twoInputOps, List.mem_cons, List.not_mem_nil, or_false] at hop
  rcases hop with rfl | rfl | rfl | rfl | rfl | rfl | rfl | rfl | rfl | rfl | rfl | rfl | rfl | rfl |
    rfl | rfl | rfl | rfl | rfl | rfl | rfl | rfl | rfl | rfl | rfl | rfl | rfl | rfl | rfl | rfl |
    rfl | rfl | rfl | rfl | rfl | rfl | rfl <;> simp only [fold] at h <;>
    first
    | exact cmpU_types h hw
    | exact cmpS_types h hw
    | exact binU_types h hw
    | exact binS_types h hw
    | exact absurd (by decide) hck
    | (simp only [withPair, getLogWidth_nat hw, getPair] at h
       split at h
       · cases h
       · first
         | exact divs (fun c h => newU_width h) (fun c h => newU_width h) h
         | exact one (out1_unwrapU h).choose_spec)
    | (simp only [withPair, getLogWidth_nat hw, getPair] at h
       obtain ⟨nv, _, h⟩ := andThen_eq_ok h
       split at h
       · cases h
       · obtain ⟨qr, _, h⟩ := andThen_eq_ok h
         first
         | exact divs (fun c h => newS_width h) (fun c h => newU_width h) h
         | exact one (out1_unwrapU h).choose_spec
         | exact one (out1_unwrapS h).choose_spec)

theorem fold1_types (m : Mode) (op : IntOp) (hop : op ∈ oneInputOps)
    (w a : Nat) (hw : w ≤ 6) (ha : a < card w) {outs} (h : fold1 m op w a = .ok (some outs)) :
    HasTypes outs (declaredOutputs w w op) := by
  unfold fold1 at h
  simp only [oneInputOps, List.mem_cons, List.not_mem_nil, or_false] at hop
  rcases hop with rfl | rfl | rfl | rfl | rfl <;> simp only [fold] at h
  · exact unU_types h hw
  · simp only [withOne, getLogWidth_nat hw, getSingle, if_true] at h
    obtain ⟨v, hv, h⟩ := andThen_eq_ok h
    split at h
    · rename_i hmin
      have hw6 : w = 6 := by
        rw [valueS_eq m hw ha] at hv
        have hv' : signedOf w a = v := by injection hv
        have hr := signedOf_range hw ha
        by_contra hne
        have h5 : w ≤ 5 := by omega
        have : half w ≤ 2 ^ 31 := by unfold half; interval_cases w <;> norm_num
        omega
      subst hw6
      split at h
      · cases h
      · obtain ⟨x, rfl⟩ := out1_unwrapU h
        exact ⟨rfl, rfl⟩
    · obtain ⟨x, rfl⟩ := out1_unwrapS h
      exact ⟨rfl, rfl⟩
  · exact unU_types h hw
  · simp only [withOne, getLogWidth_nat hw, getSingle, if_true] at h
    obtain ⟨v, _, h⟩ := andThen_eq_ok h
    split at h
    · obtain ⟨x, h1, rfl⟩ := out1_ok h
      cases h1
      exact ⟨rfl, rfl⟩
    · cases h
  · simp only [withOne, getLogWidth_nat hw, getSingle, if_true] at h
    obtain ⟨v, _, h⟩ := andThen_eq_ok h
    split at h
    · obtain ⟨x, h1, rfl⟩ := out1_ok h
      cases h1
      exact ⟨rfl, rfl⟩
    · cases h

theorem foldConv_types (m : Mode) (op : IntOp) (hop : op ∈ convOps)
    (w0 w1 a : Nat) (hw0 : w0 ≤ 6) (hw1 : w1 ≤ 6) {outs}
    (h : foldConv m op w0 w1 a = .ok (some outs)) :
    HasTypes outs (declaredOutputs w0 w1 op) := by
  unfold foldConv at h
  have single : ∀ {r : Run (Option ConstInt)} {outs}, (∀ c, r = .ok (some c) → c.logWidth = w1) →
      (r.andThen fun
        | none => .ok none
        | some c => out1 (.ok (.int c))) = .ok (some outs) → HasTypes outs [.int w1] := by
    intro r outs hr h
    obtain ⟨o, h1, h2⟩ := andThen_eq_ok h
    cases o with
    | none => cases h2
    | some c =>
      cases h2
      have := hr c h1
      obtain ⟨cw, cv⟩ := c
      simp only at this
      subst this
      exact ⟨rfl, rfl⟩
  have sum : ∀ {r : Run (Option ConstInt)} {outs},
      out1 (mkOk (.int w1) r) = .ok (some outs) → HasTypes outs [.sumErr (.int w1)] := by
    intro r outs h
    obtain ⟨x, h1, rfl⟩ := out1_ok h
    obtain ⟨o, h2, h3⟩ := andThen_eq_ok h1
    cases o with
    | none => cases h3
    | some c => cases h3; exact ⟨rfl, rfl⟩
  have err : ∀ {outs}, out1 (.ok (.err (.int w1))) = .ok (some outs) →
      HasTypes outs [.sumErr (.int w1)] := by
    intro outs h; cases h; exact ⟨rfl, rfl⟩
  simp only [convOps, List.mem_cons, List.not_mem_nil, or_false] at hop
  rcases hop with rfl | rfl | rfl | rfl <;> simp only [fold] at h <;>
    simp only [withWiden, getLogWidth_nat hw0, getLogWidth_nat hw1, getSingle] at h <;>
    split at h
  · cases h
  · exact single (fun c h => newU_width h) h
  · cases h
  · obtain ⟨v, _, h⟩ := andThen_eq_ok h
    exact single (fun c h => newS_width h) h
  · obtain ⟨v, _, h⟩ := andThen_eq_ok h
    split at h
    · exact err h
    · exact sum h
  · cases h
  · obtain ⟨v, _, h⟩ := andThen_eq_ok h
    obtain ⟨ub, _, h⟩ := andThen_eq_ok h
    split at h
    · exact err h
    · obtain ⟨lb, _, h⟩ := andThen_eq_ok h
      split at h
      · exact err h
      · exact sum h
  · cases h

/-- The widths named by legal type arguments. -/
def argWidths : List TArg → Option (Nat × Nat)
  | [.nat w] => if w ≤ 6 then some (w, w) else none
  | [.nat w0, .nat w1] => if w0 ≤ 6 ∧ w1 ≤ 6 then some (w0, w1) else none
  | _ => none

/-- Whatever the folder of an operation other than the checked divisions returns, for legal type
arguments and any valid constants, is one constant for each declared output port, of the declared
type. Missing: the checked divisions, see `C15_checked_types_refuted`. -/
theorem C15_declared_types_partial (m : Mode) (op : IntOp) (hck : op ∉ checkedOps)
    (args : List TArg) (cs : Consts) (hcs : ValidConsts cs) (w0 w1 : Nat)
    (hargs : argWidths args = some (w0, w1)) (outs : List (Nat × IVal))
    (h : fold m op args cs = .ok (some outs)) : HasTypes outs (declaredOutputs w0 w1 op) := by
  rcases allOps op with hop | hop | hop
  · rcases C15_two_inputs_used m op hop args cs hcs with h' | ⟨n, p, q, w, a, b, rfl, hn, hw, _, _, rfl, he⟩
    · rw [h'] at h; cases h
    · rw [he] at h
      simp only [argWidths] at hargs
      split at hargs
      · cases hargs
        rw [Nat.mod_eq_of_lt (by omega)] at hn; subst hn
        exact fold2_types m op hop hck _ a b hw h
      · cases hargs
  · rcases C15_one_input_used m op hop args cs hcs with h' | ⟨n, p, w, a, rfl, hn, hw, ha, rfl, he⟩
    · rw [h'] at h; cases h
    · rw [he] at h
      simp only [argWidths] at hargs
      split at hargs
      · cases hargs
        rw [Nat.mod_eq_of_lt (by omega)] at hn; subst hn
        exact fold1_types m op hop _ a hw ha h
      · cases hargs
  · rcases C15_conversion_used m op hop args cs hcs with
      h' | ⟨n0, n1, p, x0, x1, a, rfl, hn0, hn1, hw0, hw1, ha, rfl, _, _, he⟩
    · rw [h'] at h; cases h
    · rw [he] at h
      simp only [argWidths] at hargs
      split at hargs
      · cases hargs
        rw [Nat.mod_eq_of_lt (by omega)] at hn0; subst hn0
        rw [Nat.mod_eq_of_lt (by omega)] at hn1; subst hn1
        exact foldConv_types m op hop _ _ a hw0 hw1 h
      · cases hargs

/-- The checked divisions return, for a non-zero divisor, a bare tuple or integer, never the success
variant of the sum they declare: the type of the folded constant is wrong for every width, every
operand pair outside the exceptional dividend. -/
theorem C15_checked_types_refuted (m : Mode) (w n d : Nat) (hw : w ≤ 6) (hn : n < card w)
    (hd : 0 < d) (hd' : d < card w) :
    (∃ outs, fold2 m .idivmod_checked_u w n d = .ok (some outs) ∧
      ¬ HasTypes outs (declaredOutputs w w .idivmod_checked_u)) ∧
    (∃ outs, fold2 m .idiv_checked_u w n d = .ok (some outs) ∧
      ¬ HasTypes outs (declaredOutputs w w .idiv_checked_u)) ∧
    (∃ outs, fold2 m .imod_checked_u w n d = .ok (some outs) ∧
      ¬ HasTypes outs (declaredOutputs w w .imod_checked_u)) := by
  obtain ⟨h1, h2, h3⟩ := C13_checked_u_partial m w n d hw hn hd hd'
  refine ⟨⟨_, h1, ?_⟩, ⟨_, h2, ?_⟩, ⟨_, h3, ?_⟩⟩ <;>
    (intro h; simp [HasTypes, declaredOutputs, IVal.ty, IVal.ty.tys] at h)

/-- A type argument outside the legal range is accepted if it is legal modulo 256. -/
theorem C15_log_width_truncated : getLogWidth (.nat 256) = some 0 ∧ getLogWidth (.nat 7) = none := by
  constructor <;> rfl

/-- Integer folders match constants to inputs by their position in the list and ignore the port
numbers: with the constant of port 1 listed first, `isub` computes the difference the wrong way
round. -/
theorem C12_ports_ignored_refuted (m : Mode) :
    fold m .isub [.nat 3] [(1, .int ⟨3, 5⟩), (0, .int ⟨3, 3⟩)] = .ok (some [(0, .int ⟨3, 2⟩)]) ∧
    fold m .isub [.nat 3] [(0, .int ⟨3, 3⟩), (1, .int ⟨3, 5⟩)] = .ok (some [(0, .int ⟨3, 254⟩)]) := by
  cases m <;> exact ⟨rfl, rfl⟩

example : argWidths [.nat 3] = some (3, 3) := rfl
example : ValidConsts [(0, .int ⟨3, 200⟩), (1, .int ⟨3, 100⟩)] := by
  intro p c h
  simp at h
  rcases h with ⟨_, rfl⟩ | ⟨_, rfl⟩ <;> (unfold ConstInt.Valid card; decide)
example : fold .debug .iadd [.nat 3] [(0, .int ⟨3, 200⟩), (1, .int ⟨3, 100⟩)] =
    .ok (some [(0, .int ⟨3, 44⟩)]) := rfl

end Verif.IntFold
