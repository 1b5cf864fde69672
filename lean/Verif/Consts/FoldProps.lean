import Verif.Consts.FoldLemmas
import Verif.Consts.Props
import Mathlib.Tactic.Common
/-!
C65: folding logic, tuple and list operations agrees with their meaning.
-/
namespace Verif.Consts

open Verif.Types

variable {κ φ : Type}

/-! ## Logic -/

/-- C65 (logic, sound): whenever folding `And`, `Or`, `Not` or `Xor` from the constants known for
*some* of the inputs, in any order, gives a result, it is the entry of the truth table for the
actual inputs. This holds although some inputs are unknown, or known only as an extension constant
such as an external symbol. The operation `Eq` is left out, see `C65_eq_partial_wrong`. -/
theorem C65_logic_fold_sound_partial (L : Lib κ φ) (op : LogicOp) (hop : op ≠ .eq) (consts : Known κ φ)
    (ins : List Bool) (r : Bool) (ht : op.table ins = some r)
    (hs : Supplies (StandsFor L) consts ins) (outs : List (Nat × Value κ φ))
    (hf : op.fold L consts = .known outs) : outs = [(0, boolVal r)] := by
  unfold LogicOp.fold at hf
  cases hr : readInputs L consts with
  | none => simp [hr] at hf
  | some bs =>
    have hm := readInputs_mem hs hr
    have hfull := fun h => readInputs_full hs hr h
    have out : ∀ cond res, thenBool L cond res = .known outs → cond = true ∧
        outs = [(0, boolVal res)] := by
      intro cond res h
      unfold thenBool at h
      cases cond with
      | false => simp at h
      | true => simp [oneOut, mkBool_eq] at h; exact ⟨rfl, h.symm⟩
    cases op with
    | eq => exact absurd rfl hop
    | and =>
      match ins, ht with
      | [a, b], ht =>
        simp only [hr] at hf
        obtain ⟨hc, rfl⟩ := out _ _ hf
        cases ht
        have : bs.all id = (a && b) := by
          simp only [Bool.or_eq_true, Bool.not_eq_true', beq_iff_eq] at hc
          rcases hc with hc | hc
          · rw [hc]
            obtain ⟨x, hx, hxf⟩ := List.all_eq_false.mp hc
            have hxi := hm x hx
            simp only [List.mem_cons, List.not_mem_nil, or_false] at hxi
            rcases hxi with rfl | rfl <;> simp_all
          · rw [hfull hc]; simp
        rw [this]
    | or =>
      match ins, ht with
      | [a, b], ht =>
        simp only [hr] at hf
        obtain ⟨hc, rfl⟩ := out _ _ hf
        cases ht
        have : bs.any id = (a || b) := by
          simp only [Bool.or_eq_true, beq_iff_eq] at hc
          rcases hc with hc | hc
          · rw [hc]
            obtain ⟨x, hx, hxf⟩ := List.any_eq_true.mp hc
            have hxi := hm x hx
            simp only [List.mem_cons, List.not_mem_nil, or_false] at hxi
            rcases hxi with rfl | rfl <;> simp_all
          · rw [hfull hc]; simp
        rw [this]
    | not =>
      match ins, ht with
      | [a], ht =>
        simp only [hr] at hf
        obtain ⟨hc, rfl⟩ := out _ _ hf
        cases ht
        have : bs.all (!·) = !a := by
          simp only [Bool.or_eq_true, Bool.not_eq_true', beq_iff_eq] at hc
          rcases hc with hc | hc
          · rw [hc]
            obtain ⟨x, hx, hxf⟩ := List.all_eq_false.mp hc
            have hxi := hm x hx
            simp only [List.mem_cons, List.not_mem_nil, or_false] at hxi
            subst hxi; simp_all
          · rw [hfull hc]; simp
        rw [this]
    | xor =>
      match ins, ht with
      | [a, b], ht =>
        simp only [hr] at hf
        obtain ⟨hc, rfl⟩ := out _ _ hf
        cases ht
        have : bs.foldl (fun acc x => acc != x) false = (a != b) := by
          simp only [beq_iff_eq] at hc
          rw [hfull hc]; simp
        rw [this]

/-- C65 (logic, complete): when every input is a known boolean, every logic operation, `Eq`
included, folds to the entry of its truth table. -/
theorem C65_logic_fold_complete (L : Lib κ φ) (op : LogicOp) (consts : Known κ φ)
    (ins : List Bool) (r : Bool) (ht : op.table ins = some r)
    (hs : Supplies (fun c b => c.rustEq L (boolVal b) = true) consts ins)
    (hl : consts.length = ins.length) :
    op.fold L consts = .known [(0, boolVal r)] := by
  have hr : readInputs L consts = some ins := by
    obtain ⟨h1, h2⟩ := sortedConsts_full hs hl
    exact readBools_full L _ _ h1 h2
  have out : ∀ res, thenBool L true res = .known [(0, boolVal res)] := by
    intro res; simp [thenBool, oneOut, mkBool_eq]
  unfold LogicOp.fold
  simp only [hr]
  cases op with
  | not =>
    match ins, ht with
    | [a], ht => cases ht; simp [out]
  | and =>
    match ins, ht with
    | [a, b], ht => cases ht; simp [out]
  | or =>
    match ins, ht with
    | [a, b], ht => cases ht; simp [out]
  | eq =>
    match ins, ht with
    | [a, b], ht => cases ht; simp [reduceEq, out]
  | xor =>
    match ins, ht with
    | [a, b], ht => cases ht; simp [out]

/-- C65 finding: `Eq` with a single known input `false` folds to `false`, although the result is
`true` when the other, unknown input is also `false` (the folder reduces the known inputs, so that
a single one is returned as it is). Constant folding calls it in this way: it passes the constants
of those inputs that are known. -/
theorem C65_eq_partial_wrong (L : Lib κ φ) :
    Supplies (StandsFor L) [(0, boolVal false)] [false, false] ∧
    LogicOp.table .eq [false, false] = some true ∧
    LogicOp.fold L .eq [(0, boolVal false)] = .known [(0, boolVal false)] ∧
    LogicOp.fold L .eq [(1, boolVal false)] = .known [(0, boolVal false)] := by
  have hb : readBool L (boolVal false : Value κ φ) = some false :=
    readBool_equal (by simp [boolVal, Value.rustEq, rustEqValues, SumTy.rustEq, SumTy.numVariants,
      SumTy.variants, rustEqRows, rustEqRow, List.replicate])
  refine ⟨⟨by simp, ?_⟩, rfl, ?_, ?_⟩
  · intro p hp
    simp only [List.mem_singleton] at hp
    subst hp
    exact ⟨false, rfl, .inl (by simp [boolVal, Value.rustEq, rustEqValues, SumTy.rustEq,
      SumTy.numVariants, SumTy.variants, rustEqRows, rustEqRow, List.replicate])⟩
  · simp [LogicOp.fold, readInputs, sortedConsts, sortByPort, insertByPort, readBools, hb, reduceEq,
      thenBool, oneOut, mkBool_eq]
  · simp [LogicOp.fold, readInputs, sortedConsts, sortByPort, insertByPort, readBools, hb, reduceEq,
      thenBool, oneOut, mkBool_eq]

/-! ## Tuples -/

/-- C65 (tuples): when all inputs are known and well typed, `MakeTuple` folds to a constant that
unpacks to them and has the tuple type of their types; `UnpackTuple` of that constant gives them
back on the ports in order. -/
theorem C65_tuple_fold_roundtrip (L : Lib κ φ) (consts : Known κ φ) (ins : List (Value κ φ))
    (hs : Supplies (fun c v => c = v) consts ins) (hl : consts.length = ins.length)
    (hw : ∀ v ∈ ins, WellTyped L v) :
    ∃ v, foldMakeTuple L consts = .known [(0, v)] ∧ WellTyped L v ∧ v.asTuple = some ins ∧
      foldUnpackTuple [(0, v)] = .known (ins.zipIdx.map fun p => (p.2, p.1)) := by
  obtain ⟨ts, -, -, ⟨ty, h, -⟩, -⟩ := C64_constructors_total L ins hw
  have ha := C64_tuple_unpacks L ins _ h
  refine ⟨_, ?_, ?_, ha, ?_⟩
  · simp [foldMakeTuple, sortedConsts_eq hs hl, h, foldOutRow]
  · unfold Value.mkTuple at h
    cases ht : getTypes L ins with
    | none => simp [ht] at h
    | some ts =>
      simp only [ht, unwrap_eq, mkSum_ok] at h
      obtain ⟨hc, hv⟩ := h
      rw [hv]
      exact ⟨_, hasType_sum_of_check hw hc⟩
  · simp [foldUnpackTuple, ha, foldOutRow]

/-- C65 finding: `MakeTuple` does not check that all inputs are known. From the constants of some
of its inputs it folds to the shorter tuple, a constant of another type. (The constant folding pass
handles tuples itself and does not call this folder; `ExtensionOp::constant_fold` is public.) -/
theorem C65_partial_tuple_wrong (L : Lib κ φ) :
    foldMakeTuple L [(1, .usize 5)] = .known [(0, .sum 0 [.usize 5] (.newTuple [usizeTy]))] ∧
    foldMakeTuple L ([] : Known κ φ) = .known [(0, .sum 0 [] (.unit 1))] := by
  have h1 : Value.mkTuple L [.usize 5] = some (.sum 0 [.usize 5] (.newTuple [usizeTy])) := by
    simp only [Value.mkTuple, getTypes, Value.getType]
    rw [unwrap_eq, mkSum_ok]
    exact ⟨checkType_getTypes L _ _ _ [usizeTy] rfl rfl, rfl⟩
  have h2 : Value.mkTuple L ([] : List (Value κ φ)) = some (.sum 0 [] (.unit 1)) := by
    simp only [Value.mkTuple, getTypes]
    rw [unwrap_eq, mkSum_ok]
    exact ⟨checkType_getTypes L _ _ _ [] rfl rfl, rfl⟩
  constructor
  · simp [foldMakeTuple, sortedConsts, sortByPort, insertByPort, h1, foldOutRow]
  · simp [foldMakeTuple, sortedConsts, sortByPort, h2, foldOutRow]

/-- C65 (no-op and generic naturals): a no-op folds to its input; loading the natural `n` folds to
the constant `n` of the type `usize`. -/
theorem C65_noop_and_nat (L : Lib κ φ) (c : Value κ φ) (n : Nat) :
    foldNoop [(0, c)] = .known [(0, c)] ∧
    foldLoadNat (κ := κ) (φ := φ) [.boundedNat n] = .known [(0, .usize n)] ∧
    HasType L (.usize n) usizeTy := ⟨rfl, rfl, .usize n⟩

/-! ## Lists -/

theorem eitherTy_eq (l r l' r' : List RTy) (h : rustEqRows [l, r] [l', r'] = true) :
    (eitherTy l r).rustEq (eitherTy l' r') = true := by
  refine sumTy_toTy_eq ?_
  have h1 : (SumTy.new [l, r]).numVariants = 2 := by
    have := congrArg List.length (variants_new [l, r])
    unfold SumTy.new at this ⊢
    split <;> simp_all [SumTy.numVariants]
  have h2 : (SumTy.new [l', r']).numVariants = 2 := by
    unfold SumTy.new
    split <;> simp_all [SumTy.numVariants]
  simp [SumTy.rustEq, h1, h2, variants_new, h]

theorem rowEq_refl (r : List RTy) : rustEqRow r r = true := by
  have h := tyEq_refl (.function r [])
  simp [Ty.rustEq, rustEqRow] at h
  exact h

/-- The right variant holding one value of a type equal to `t`. -/
theorem constRight_one {L : Lib κ φ} {x : Value κ φ} {t : Ty} (left : List RTy)
    (hx : HasType L x t) :
    ∃ o, constRight L left [x] = some o ∧ IsVariant L (eitherTy left [.ty t]) 1 [x] o := by
  obtain ⟨u, hu, he⟩ := hx.reported
  have hg : getTypes L [x] = some [u] := by simp [getTypes, hu]
  have hc : (SumTy.new [left, [.ty u]]).checkType L 1 [x] = .ok () :=
    checkType_getTypes L _ _ _ [u] hg (by rw [variants_new]; rfl)
  refine ⟨.sum 1 [x] (.new [left, [.ty u]]), ?_, ?_, _, rfl⟩
  · simp only [constRight, hg]
    rw [unwrap_eq, mkSum_ok]
    exact ⟨hc, rfl⟩
  · refine .conv _ _ _ (hasType_sum_of_check (by simp; exact ⟨t, hx⟩) hc) ?_
    exact eitherTy_eq _ _ _ _ (by simp [rustEqRows, rowEq_refl, rustEqRow, RTy.rustEq, he])

theorem constLeft_one {L : Lib κ φ} {x : Value κ φ} {t : Ty} (right : List RTy)
    (hx : HasType L x t) :
    ∃ o, constLeft L [x] right = some o ∧ IsVariant L (eitherTy [.ty t] right) 0 [x] o := by
  obtain ⟨u, hu, he⟩ := hx.reported
  have hg : getTypes L [x] = some [u] := by simp [getTypes, hu]
  have hc : (SumTy.new [[.ty u], right]).checkType L 0 [x] = .ok () :=
    checkType_getTypes L _ _ _ [u] hg (by rw [variants_new]; rfl)
  refine ⟨.sum 0 [x] (.new [[.ty u], right]), ?_, ?_, _, rfl⟩
  · simp only [constLeft, hg]
    rw [unwrap_eq, mkSum_ok]
    exact ⟨hc, rfl⟩
  · refine .conv _ _ _ (hasType_sum_of_check (by simp; exact ⟨t, hx⟩) hc) ?_
    exact eitherTy_eq _ _ _ _ (by simp [rustEqRows, rowEq_refl, rustEqRow, RTy.rustEq, he])

theorem constLeft_none (L : Lib κ φ) (right : List RTy) :
    ∃ o, constLeft L [] right = some o ∧ IsVariant L (eitherTy [] right) 0 [] o := by
  have hc : (SumTy.new [[], right]).checkType L 0 [] = .ok () :=
    checkType_getTypes L _ _ _ [] rfl (by rw [variants_new]; rfl)
  refine ⟨.sum 0 [] (.new [[], right]), ?_, ?_, _, rfl⟩
  · simp only [constLeft, getTypes]
    rw [unwrap_eq, mkSum_ok]
    exact ⟨hc, rfl⟩
  · exact hasType_sum_of_check (by simp) hc

/-- The inputs of a list operation as constants: a list constant of the element type, followed by
an index or an element or both, as the signature says, all well typed. -/
def ListInputs (L : Lib κ φ) (elem : Ty) (op : ListOp) (ins : List (Value κ φ)) : Prop :=
  (∃ vs rest, ins = .list elem vs :: rest) ∧
  (∀ v, ins[1]? = some v → op ≠ .push → ∃ n, v = .usize n) ∧
  ins.length = (op.inTypes elem).length ∧
  ∀ p ∈ ins.zip (op.inTypes elem), HasType L p.1 p.2

theorem mem_of_hasType_list {L : Lib κ φ} {elem : Ty} {vs : List (Value κ φ)}
    (h : HasType L (.list elem vs) (listTy elem)) : ∀ v ∈ vs, HasType L v elem := by
  obtain ⟨hv, hp⟩ := wellTyped_parts ⟨_, h⟩
  intro v hm
  obtain ⟨t, ht⟩ := hp v hm
  exact ht.at ((checkElems_ok L elem vs).mp hv v hm)

/-- C65 (lists): when all inputs of a list operation are known list, index and element constants of
the declared types, `pop`, `push`, `get`, `set`, and `insert` at an index out of bounds, fold to
constants of the declared output types on the declared ports, which are what the operation does on
the list. -/
theorem C65_list_fold_sound_partial (L : Lib κ φ) (elem : Ty) (op : ListOp) (consts : Known κ φ)
    (ins : List (Value κ φ)) (hs : Supplies (fun c v => c = v) consts ins)
    (hl : consts.length = ins.length) (hi : ListInputs L elem op ins) (hop : op ≠ .length)
    (hins : op = .insert → ∀ vs n x, ins = [.list elem vs, .usize n, x] → vs.length ≤ n) :
    ∃ outs : List (Value κ φ), op.fold L consts = .known (outs.zipIdx.map fun p => (p.2, p.1)) ∧
      ListSpec L elem op ins outs ∧ outs.length = (op.outTypes elem).length ∧
      ∀ p ∈ outs.zip (op.outTypes elem), HasType L p.1 p.2 := by
  have hc := sortedConsts_eq hs hl
  obtain ⟨⟨vs, rest, rfl⟩, hidx, hlen, hty⟩ := hi
  cases op with
  | length => exact absurd rfl hop
  | pop =>
    have hr : rest = [] := by cases rest <;> simp_all [ListOp.inTypes]
    subst hr
    have hvs := mem_of_hasType_list (hty (.list elem vs, listTy elem) (by simp [ListOp.inTypes]))
    rcases List.eq_nil_or_concat vs with rfl | ⟨init, x, rfl⟩
    · obtain ⟨o, ho, hv⟩ := constLeft_none L [.ty elem]
      refine ⟨[.list elem [], o], ?_, .pop_empty o hv, rfl, ?_⟩
      · simp [ListOp.fold, foldPop, hc, asList, ho]
      · simp only [ListOp.outTypes, List.zip_cons_cons, List.zip_nil_right, List.mem_cons,
          List.not_mem_nil, or_false]
        rintro p (rfl | rfl)
        · exact .list elem [] (by simp)
        · exact hv.1
    · rw [List.concat_eq_append] at *
      have hx : HasType L x elem := hvs x (by simp)
      obtain ⟨o, ho, hv⟩ := constRight_one [] hx
      refine ⟨[.list elem init, o], ?_, .pop_last init x o hv, rfl, ?_⟩
      · simp [ListOp.fold, foldPop, hc, asList, ho]
      · simp only [ListOp.outTypes, List.zip_cons_cons, List.zip_nil_right, List.mem_cons,
          List.not_mem_nil, or_false]
        rintro p (rfl | rfl)
        · exact .list elem init fun v hv => hvs v (by simp [hv])
        · exact hv.1
  | push =>
    match rest, hlen with
    | [x], _ =>
      have hvs := mem_of_hasType_list (hty (.list elem vs, listTy elem) (by simp [ListOp.inTypes]))
      have hx : HasType L x elem := hty (x, elem) (by simp [ListOp.inTypes])
      refine ⟨[.list elem (vs ++ [x])], ?_, .push vs x, rfl, ?_⟩
      · simp [ListOp.fold, foldPush, hc, asList]
      · simp only [ListOp.outTypes, List.zip_cons_cons, List.zip_nil_right, List.mem_cons,
          List.not_mem_nil, or_false]
        rintro p rfl
        refine .list elem _ fun v hv => ?_
        rcases List.mem_append.mp hv with hv | hv
        · exact hvs v hv
        · rw [List.mem_singleton.mp hv]; exact hx
  | get =>
    match rest, hlen with
    | [ix], _ =>
      obtain ⟨n, rfl⟩ := hidx ix rfl (by simp)
      have hvs := mem_of_hasType_list (hty (.list elem vs, listTy elem) (by simp [ListOp.inTypes]))
      by_cases hn : n < vs.length
      · have hx : HasType L vs[n] elem := hvs _ (List.getElem_mem hn)
        obtain ⟨o, ho, hv⟩ := constRight_one [] hx
        have hsplit : vs = vs.take n ++ vs[n] :: vs.drop (n + 1) := by simp
        have hpl : (vs.take n).length = n := by simp; omega
        refine ⟨[o], ?_, ?_, rfl, ?_⟩
        · simp [ListOp.fold, foldGet, hc, asList, asUsize, hn, ho, oneOut]
        · have := ListSpec.get_in (L := L) (elem := elem) (vs.take n) vs[n] (vs.drop (n + 1)) o hv
          rwa [← hsplit, hpl] at this
        · simp only [ListOp.outTypes, List.zip_cons_cons, List.zip_nil_right, List.mem_cons,
            List.not_mem_nil, or_false]
          rintro p rfl
          exact hv.1
      · obtain ⟨o, ho, hv⟩ := constLeft_none L [.ty elem]
        refine ⟨[o], ?_, .get_out vs n o (by omega) hv, rfl, ?_⟩
        · simp [ListOp.fold, foldGet, hc, asList, asUsize, hn, ho, oneOut]
        · simp only [ListOp.outTypes, List.zip_cons_cons, List.zip_nil_right, List.mem_cons,
            List.not_mem_nil, or_false]
          rintro p rfl
          exact hv.1
  | set =>
    match rest, hlen with
    | [ix, x], _ =>
      obtain ⟨n, rfl⟩ := hidx ix rfl (by simp)
      have hvs := mem_of_hasType_list (hty (.list elem vs, listTy elem) (by simp [ListOp.inTypes]))
      have hx : HasType L x elem := hty (x, elem) (by simp [ListOp.inTypes])
      by_cases hn : n < vs.length
      · have hold : HasType L vs[n] elem := hvs _ (List.getElem_mem hn)
        obtain ⟨o, ho, hv⟩ := constRight_one [.ty elem] hold
        have hsplit : vs = vs.take n ++ vs[n] :: vs.drop (n + 1) := by simp
        have hpl : (vs.take n).length = n := by simp; omega
        have hset : vs.set n x = vs.take n ++ x :: vs.drop (n + 1) := by
          rw [List.set_eq_take_append_cons_drop, if_pos hn]
        refine ⟨[.list elem (vs.set n x), o], ?_, ?_, rfl, ?_⟩
        · simp [ListOp.fold, foldSet, hc, asList, asUsize, hn, ho]
        · have := ListSpec.set_in (L := L) (elem := elem) (vs.take n) vs[n] (vs.drop (n + 1)) x o hv
          rwa [← hsplit, hpl, ← hset] at this
        · simp only [ListOp.outTypes, List.zip_cons_cons, List.zip_nil_right, List.mem_cons,
            List.not_mem_nil, or_false]
          rintro p (rfl | rfl)
          · refine .list elem _ fun v hv => ?_
            rcases List.mem_or_eq_of_mem_set hv with hv | rfl
            · exact hvs v hv
            · exact hx
          · exact hv.1
      · obtain ⟨o, ho, hv⟩ := constLeft_one [.ty elem] hx
        refine ⟨[.list elem vs, o], ?_, .set_out vs n x o (by omega) hv, rfl, ?_⟩
        · simp [ListOp.fold, foldSet, hc, asList, asUsize, hn, ho]
        · simp only [ListOp.outTypes, List.zip_cons_cons, List.zip_nil_right, List.mem_cons,
            List.not_mem_nil, or_false]
          rintro p (rfl | rfl)
          · exact .list elem vs hvs
          · exact hv.1
  | insert =>
    match rest, hlen with
    | [ix, x], _ =>
      obtain ⟨n, rfl⟩ := hidx ix rfl (by simp)
      have hvs := mem_of_hasType_list (hty (.list elem vs, listTy elem) (by simp [ListOp.inTypes]))
      have hx : HasType L x elem := hty (x, elem) (by simp [ListOp.inTypes])
      have hn := hins rfl vs n x rfl
      obtain ⟨o, ho, hv⟩ := constLeft_one [.ty (.sumUnit 1)] hx
      refine ⟨[.list elem vs, o], ?_, .insert_out vs n x o hn hv, rfl, ?_⟩
      · have hn' : ¬ n < vs.length := by omega
        simp [ListOp.fold, foldInsert, hc, asList, asUsize, hn', ho]
      · simp only [ListOp.outTypes, List.zip_cons_cons, List.zip_nil_right, List.mem_cons,
          List.not_mem_nil, or_false]
        rintro p (rfl | rfl)
        · exact .list elem vs hvs
        · exact hv.1

/-- C65 (lists, partial knowledge): when some input of a list operation is unknown, nothing is
folded. -/
theorem C65_list_fold_needs_all (L : Lib κ φ) (elem : Ty) (op : ListOp) (consts : Known κ φ)
    (hl : consts.length ≠ (op.inTypes elem).length) : op.fold L consts = .unknown := by
  have hc := length_sortedConsts consts
  rw [← hc] at hl
  generalize hs : sortedConsts consts = cs at hl
  cases op <;> simp only [ListOp.fold, foldPop, foldPush, foldGet, foldSet, foldInsert, foldLength,
    hs] <;> rcases cs with _ | ⟨a, _ | ⟨b, _ | ⟨c, _ | ⟨d, cs⟩⟩⟩⟩ <;>
    simp_all [ListOp.inTypes]

/-- C65 finding: the folder of `length` puts the length on output port 0. The signature has the
list on port 0 and the length on port 1, so constant folding replaces the list by a `usize`. -/
theorem C65_length_port_wrong (L : Lib κ φ) (elem : Ty) (vs : List (Value κ φ)) :
    ListOp.fold L .length [(0, .list elem vs)] = .known [(0, .usize vs.length)] ∧
    (ListOp.outTypes elem .length)[0]? = some (listTy elem) ∧
    ¬ HasType L (.usize vs.length) (listTy elem) := by
  refine ⟨by simp [ListOp.fold, foldLength, sortedConsts, sortByPort, insertByPort, asList], rfl, ?_⟩
  intro h
  obtain ⟨t, ht, he⟩ := h.reported
  cases ht
  simp [usizeTy, listTy, Ty.rustEq] at he

/-- C65 finding: when `insert` succeeds, the folded second output is the variant 1 of the sum
`Sum([elem], [])` and not of the declared `Sum([elem], [unit])`: it has no value where the
signature promises a unit, so it does not have the declared type. The list itself is right. -/
theorem C65_insert_type_wrong (L : Lib κ φ) (elem : Ty) (pre : List (Value κ φ)) (next x : Value κ φ)
    (post : List (Value κ φ)) :
    ∃ o, ListOp.fold L .insert [(0, .list elem (pre ++ next :: post)), (1, .usize pre.length), (2, x)]
        = .known [(0, .list elem (pre ++ x :: next :: post)), (1, o)] ∧
      (ListOp.outTypes elem .insert)[1]? = some (eitherTy [.ty elem] [.ty (.sumUnit 1)]) ∧
      ¬ HasType L o (eitherTy [.ty elem] [.ty (.sumUnit 1)]) := by
  have ho : constRight L [.ty elem] ([] : List (Value κ φ)) =
      some (.sum 1 [] (.new [[.ty elem], []])) := by
    simp only [constRight, getTypes]
    rw [unwrap_eq, mkSum_ok]
    exact ⟨checkType_getTypes L _ _ _ [] rfl (by rw [variants_new]; rfl), rfl⟩
  refine ⟨.sum 1 [] (.new [[.ty elem], []]), ?_, rfl, ?_⟩
  · simp [ListOp.fold, foldInsert, sortedConsts, sortByPort, insertByPort, asList, asUsize, ho]
  · intro h
    obtain ⟨t, ht, he⟩ := h.reported
    cases ht
    have h1 : ∀ r : List RTy, SumTy.new [[.ty elem], r] = .general [[.ty elem], r] := by
      intro r; simp [SumTy.new]
    have h2 : ∀ r : List RTy, Ty.newSum [[.ty elem], r] = .general [[.ty elem], r] := by
      intro r; simp [Ty.newSum]
    simp only [eitherTy, h1, SumTy.toTy, h2, Ty.general, Ty.rustEq, rustEqRows, rustEqRow] at he
    simp at he

/-- C65 finding: the folders of the list operations, and of `UnpackTuple`, assume that a constant
of a list (or tuple) type is a list (or sum) constant. A valid external symbol may have any type.
Folding an operation on such a constant panics. -/
theorem C65_external_symbol_panics (elem : Ty) (ts : List Ty) :
    WellTyped symLib (.ext ⟨"x", listTy elem, true⟩) ∧
    ListOp.fold symLib .pop [(0, .ext ⟨"x", listTy elem, true⟩)] = .panic ∧
    ListOp.fold symLib .length [(0, .ext ⟨"x", listTy elem, true⟩)] = .panic ∧
    ListOp.fold symLib .get [(0, .list elem []), (1, .ext ⟨"i", usizeTy, true⟩)] = .panic ∧
    WellTyped symLib (.ext ⟨"x", (SumTy.newTuple ts).toTy, true⟩) ∧
    foldUnpackTuple [(0, (.ext ⟨"x", (SumTy.newTuple ts).toTy, true⟩ : Value Sym Empty))] = .panic := by
  refine ⟨⟨_, .ext _ rfl⟩, ?_, ?_, ?_, ⟨_, .ext _ rfl⟩, ?_⟩
  all_goals simp [ListOp.fold, foldPop, foldLength, foldGet, foldUnpackTuple, sortedConsts,
    sortByPort, insertByPort, asList, asUsize, Value.asTuple]

/-! ## Non-vacuity -/

/-- One known input is enough for `And` when it is false. -/
example : Supplies (StandsFor symLib) [(1, boolVal false)] [true, false] ∧
    LogicOp.fold symLib .and [(1, boolVal false)] = .known [(0, boolVal false)] := by
  have hb : readBool symLib (boolVal false : Value Sym Empty) = some false := by decide +kernel
  refine ⟨⟨by simp, ?_⟩, ?_⟩
  · intro p hp
    simp only [List.mem_singleton] at hp
    subst hp
    exact ⟨false, rfl, .inl (by decide +kernel)⟩
  · simp [LogicOp.fold, readInputs, sortedConsts, sortByPort, insertByPort, readBools, hb,
      thenBool, oneOut, mkBool_eq]

/-- Setting an element of a list of two numbers, with the constants supplied out of order. -/
example : Supplies (fun c v => c = v)
      [(2, (.usize 9 : Value Sym Empty)), (0, .list usizeTy [.usize 3, .usize 4]), (1, .usize 1)]
      [.list usizeTy [.usize 3, .usize 4], .usize 1, .usize 9] ∧
    ListInputs symLib usizeTy .set [.list usizeTy [.usize 3, .usize 4], .usize 1, .usize 9] := by
  refine ⟨⟨by decide, ?_⟩, ⟨_, _, rfl⟩, ?_, rfl, ?_⟩
  · intro p hp
    simp only [List.mem_cons, List.not_mem_nil, or_false] at hp
    rcases hp with rfl | rfl | rfl <;> exact ⟨_, rfl, rfl⟩
  · intro v hv _
    simp at hv
    exact ⟨1, hv.symm⟩
  · intro p hp
    simp only [ListOp.inTypes, List.zip_cons_cons, List.zip_nil_right, List.mem_cons,
      List.not_mem_nil, or_false] at hp
    rcases hp with rfl | rfl | rfl
    · refine .list _ _ fun v hv => ?_
      simp only [List.mem_cons, List.not_mem_nil, or_false] at hv
      rcases hv with rfl | rfl <;> exact .usize _
    · exact .usize _
    · exact .usize _

end Verif.Consts
