import Verif.Patch.CfgToDfgOutput
import Verif.Patch.MoveOut

/-!
# Unpacking before an output, in any Hugr
-/
namespace Verif.Patch

open Verif.Graph Verif.Ops Verif.Passes Verif.Validate Verif.Dataflow

variable {Meta : Type} {C : Validate.Context} {h g k : Hugr Ops.Op Meta}

/-- The Hugr `k` with the types `outs` at the output `o` and with `w`, that unpacks a tuple, in `D`. -/
def unpackedTo (k : Hugr Ops.Op Meta) (D o w : Nat) (row outs : List Types.Ty) : Hugr Ops.Op Meta :=
  added { k with ops := upd k.ops o (.output outs), ins := upd k.ins o (outs.length + 1) } w D (unpackOp row) (k.children D ++ [w])

theorem unpack_any {D o w : Nat} {row other outs : List Types.Ty} (t : IsTree k) (klok : LinksOk k)
    (ko : k.ops o = .output (sumOf [row] :: other)) (lo : k.live o = true) (kup : k.hier.parent o = some D)
    (kins : k.ins o = (sumOf [row] :: other).length + 1) (kout : ∀ l ∈ k.links, l.src ≠ o)
    (one : ∀ q < (sumOf [row] :: other).length, (k.linkedOutputs o q).length = 1)
    (kind : ∀ l ∈ k.links, l.dst = o → l.dstPort = 0 → (k.ops l.src).tagOk = true ∧
      ((k.ops l.src).ports .outgoing)[l.srcPort]? = some (.value (sumOf [row])))
    (wk : k.live w = false) (houts : outs = row ++ other) :
    ∃ ls, unpackBeforeOutput k w o outs = some (SetLinks (unpackedTo k D o w row outs) ls) ∧
      IsTree (unpackedTo k D o w row outs) ∧
      ls.Perm (k.links.map (redirect o w row.length) ++ (List.range row.length).map fun q => ⟨w, q, o, q⟩) := by
  have lD : k.live D = true := (t.parent_live _ _ kup).2
  have how : o ≠ w := by rintro rfl; rw [lo] at wk; cases wk
  have src : ∀ q, ∃ s, q < (sumOf [row] :: other).length → k.linkedOutputs o q = [s] := by
    intro q
    by_cases hq : q < (sumOf [row] :: other).length
    · obtain ⟨s, hs⟩ := List.length_eq_one_iff.1 (one q hq)
      exact ⟨s, fun _ => hs⟩
    · exact ⟨(0, 0), fun h => absurd h hq⟩
  choose f hf using src
  have f_mem : ∀ q < (sumOf [row] :: other).length, (⟨(f q).1, (f q).2, o, q⟩ : Link) ∈ k.links := by
    intro q hq
    rw [← mem_linkedOutputs, hf q hq]; simp
  have flat : (List.range (sumOf [row] :: other).length).flatMap (k.linkedOutputs o) =
      f 0 :: (List.range' 1 other.length).map f := by
    rw [List.flatMap_def, List.map_congr_left (g := fun q => [f q]) (fun q hq => hf q (List.mem_range.1 hq))]
    rw [← List.flatMap_def, ← List.map_eq_flatMap, List.range_eq_range', List.length_cons, List.range'_succ]
    rfl
  have orders : ∀ s ∈ k.linkedOutputs o (other.length + 1), (⟨s.1, s.2, o, other.length + 1⟩ : Link) ∈ k.links :=
    fun s hs => mem_linkedOutputs.1 hs
  -- what the steps give
  let F := k.links.filter fun l => decide (l.dst ≠ o)
  have htake := takeInputs_eq ko lo kins klok one
  rw [flat] at htake
  let k2 : Hugr Ops.Op Meta := { SetLinks k F with ops := upd k.ops o (.output outs) }
  have e2 : (SetLinks k F).replaceOp o (.output outs) = some (k2, k.ops o) := by
    unfold Hugr.replaceOp; rw [if_pos (by exact lo)]; rfl
  let k3 : Hugr Ops.Op Meta := { k2 with ins := upd k.ins o (outs.length + 1) }
  have e3 : k2.addPorts o .incoming ((outs.length : Int) - ((sumOf [row] :: other).length : Nat)) =
      some (k3, (k.ins o, outs.length + 1)) := by
    unfold Hugr.addPorts
    rw [if_pos (by exact lo)]
    have hnew : addSigned (k2.ins o) ((outs.length : Int) - ((sumOf [row] :: other).length : Nat)) = outs.length + 1 := by
      change addSigned (k.ins o) _ = _
      rw [kins]; unfold addSigned; omega
    simp only [hnew]
    have hl2 : (F.filter fun l => (l.dst != o || decide (l.dstPort < outs.length + 1)) &&
        (l.src != o || decide (l.srcPort < k2.outs o))) = F := by
      rw [List.filter_eq_self]
      intro l hl
      obtain ⟨hl, hd⟩ := List.mem_filter.1 hl
      have h1 : l.dst ≠ o := by simpa using hd
      by_cases h2 : l.src = o
      · have := (klok l hl).2.1
        rw [h2] at this
        simp [h1, h2]; exact this
      · simp [h1, h2]
    have hout : upd k2.outs o (k2.outs o) = k2.outs := by
      funext x; unfold upd; split <;> simp_all
    unfold Hugr.resizePorts
    change some (({ k2 with ins := upd k.ins o (outs.length + 1), outs := upd k2.outs o (k2.outs o), links := _ } : Hugr Ops.Op Meta), _) = _
    rw [hout]
    congr 2
    change ({ k2 with ins := _, links := F.filter _ } : Hugr Ops.Op Meta) = _
    rw [hl2]
    rfl
  have t3 : IsTree k3 := tree_of_eq t rfl rfl rfl rfl rfl
  obtain ⟨a1, a2⟩ := addNodeWithParent_eq (op := unpackOp row) t3 (idx := w) (p := D) wk lD
  let k4 := added k3 w D (unpackOp row) (k3.children D ++ [w])
  have fw : ∀ {l : Link}, l ∈ k.links → l.src ≠ w ∧ l.dst ≠ w ∧ l.src ≠ o := by
    intro l hl
    obtain ⟨a, b, c, _⟩ := klok l hl
    refine ⟨?_, ?_, ?_⟩
    · rintro e; rw [e, wk] at a; cases a
    · rintro e; rw [e, wk] at c; cases c
    · exact kout l hl
  have start : ∀ {l : Link}, l ∈ k.links → ∀ ls, CanStart (SetLinks k4 ls) l.src l.srcPort := by
    intro l hl ls
    obtain ⟨a, b, _, _⟩ := klok l hl
    obtain ⟨c, _, _⟩ := fw hl
    exact ⟨by simp [k4, added, upd, c, k3, k2, a], by simp [k4, added, upd, c, k3, k2, b]⟩
  have outsU : opsInfo.outputs (unpackOp row) = row.length + 1 := by
    change runGet 0 ((unpackOp row).portCount .outgoing) = _
    rw [C10_port_count _ _ rfl]
    simp [runGet, unpackOp, Op.ports]
  have startW : ∀ ls, ∀ q < row.length, CanStart (SetLinks k4 ls) w q := by
    intro ls q hq
    refine ⟨by simp [k4, added, upd], ?_⟩
    simp only [setLinks_outs, k4, added, upd, if_true]
    rw [outsU]; omega
  have endO : ∀ ls, ∀ q < outs.length + 1, CanEnd (SetLinks k4 ls) o q := by
    intro ls q hq
    exact ⟨by simp [k4, added, upd, how, k3, k2, lo], by simp [k4, added, upd, how, k3, hq]⟩
  have endW : ∀ ls, CanEnd (SetLinks k4 ls) w 0 := by
    intro ls
    refine ⟨by simp [k4, added, upd], ?_⟩
    simp only [setLinks_ins, k4, added, upd, if_true]
    exact Nat.succ_pos 1
  have hlen : outs.length = row.length + other.length := by rw [houts, List.length_append]
  let U : List Link := (List.range row.length).map fun q => ⟨w, q, o, q⟩
  let R : List Link := (List.range other.length).map fun j => ⟨(f (1 + j)).1, (f (1 + j)).2, o, row.length + j⟩
  let O : List Link := (k.linkedOutputs o (other.length + 1)).map fun s => ⟨s.1, s.2, o, outs.length⟩
  let first : Link := ⟨(f 0).1, (f 0).2, w, 0⟩
  let g := SetLinks k4 ((((F ++ [first]) ++ U) ++ R) ++ O)
  have wire : wireUnpackFirst k3 w (f 0 :: (List.range' 1 other.length).map f) (k.linkedOutputs o (other.length + 1)) o = some g := by
    unfold wireUnpackFirst
    have hgp : k3.getParent o = some D := by
      unfold Hugr.getParent
      rw [if_pos]
      · exact kup
      · have h1 : k3.live o = true := lo
        have h2 : o ≠ k3.moduleRoot := by
          rintro e
          have := t3.root_top
          rw [← e] at this
          change k.hier.parent o = none at this
          rw [kup] at this; cases this
        simp [h1, h2]
    rw [hgp]
    simp only
    have m0 := f_mem 0 (by simp)
    obtain ⟨s1, s2⟩ := kind _ m0 rfl rfl
    have hpk : (k3.ops (f 0).1).portKind .outgoing (f 0).2 = .ok (some (.value (sumOf [row]))) := by
      have hne := (fw m0).2.2
      simp only at hne s1 s2
      have e : k3.ops (f 0).1 = k.ops (f 0).1 := by
        change upd k.ops o _ (f 0).1 = _
        simp only [upd, if_neg hne]
      rw [e, C10_port_kind _ _ s1 _ (List.getElem?_eq_some_iff.1 s2).1, s2]
    rw [hpk]
    simp only [tupleElems_sumOf]
    rw [a1]
    simp only
    have c1 : (added k3 w D (unpackOp row) (k3.children D ++ [w])).connect ⟨(f 0).1, (f 0).2, w, 0⟩ =
        some (SetLinks k4 (F ++ [first])) := connect_eq (start m0 k4.links) (endW k4.links)
    rw [c1]
    simp only
    rw [connectMany (fun q => (⟨w, q, o, q⟩ : Link)) (List.range row.length) (SetLinks k4 (F ++ [first]))
      (fun q hq => ⟨startW _ q (List.mem_range.1 hq), endO _ q (by have := List.mem_range.1 hq; omega)⟩)]
    simp only [setLinks_links, setLinks_setLinks, setLinks_ops]
    have ho4 : k4.ops o = .output outs := by simp [k4, added, upd, how, k3, k2]
    rw [ho4]
    have op1 : (Op.output outs).otherPortKind .incoming = some .stateOrder := rfl
    have op2 : (Op.output outs).otherPort .incoming = .ok (some outs.length) := by
      rw [C10_other_port _ _ rfl]
      change Run.ok ((outs.map Kind.value ++ [Kind.stateOrder]).findIdx? Kind.isOther) = _
      rw [List.findIdx?_append, List.findIdx?_eq_none_iff.2 (by
        intro x hx; simp only [List.mem_map] at hx; obtain ⟨t, _, rfl⟩ := hx; rfl)]
      simp [List.findIdx?_cons, Kind.isOther]
    rw [op1, op2]
    simp only
    rw [wireRest_eq f other.length 1 row.length (SetLinks k4 ((F ++ [first]) ++ U)) (fun j hj => ⟨by omega,
      start (f_mem (1 + j) (by simp; omega)) _, endO _ _ (by omega)⟩)]
    simp only [setLinks_links, setLinks_setLinks]
    exact connectMany (fun s : Nat × Nat => (⟨s.1, s.2, o, outs.length⟩ : Link)) _ (SetLinks k4 (((F ++ [first]) ++ U) ++ R))
      (fun s hs => ⟨start (orders s hs) _, endO _ _ (Nat.lt_succ_self _)⟩)
  refine ⟨_, (?_ : _ = some g), tree_of_eq a2 rfl rfl rfl rfl rfl, ?_⟩
  · unfold unpackBeforeOutput
    rw [htake]
    simp only
    have : (SetLinks k (k.links.filter fun l => decide (l.dst ≠ o))).ops o = .output (sumOf [row] :: other) := ko
    rw [this]
    simp only
    change (match (SetLinks k F).replaceOp o (.output outs) with | none => none | some (h2, _) => _) = _
    rw [e2]
    simp only
    rw [e3]
    exact wire
  change ((((F ++ [first]) ++ U) ++ R) ++ O).Perm _
  have kp : ∀ l ∈ k.links, l.dst = o → l.dstPort < other.length + 2 := by
    intro l hl e
    have := (klok l hl).2.2.2
    rw [e, kins] at this; simpa using this
  have q1 : k.links.Perm (F ++ (List.range (other.length + 2)).flatMap fun q =>
      k.links.filter fun l => decide (l.dst = o) && decide (l.dstPort = q)) := by
    have s1 := (List.filter_append_perm (fun l : Link => decide (l.dst ≠ o)) k.links).symm
    refine s1.trans (List.Perm.append_left F ?_)
    refine List.Perm.trans (List.Perm.of_eq ?_) (perm_ports o k.links (other.length + 2))
    apply List.filter_congr
    intro l hl
    by_cases e : l.dst = o
    · simp [e, kp l hl e]
    · simp [e]
  have q2 : ((F ++ (List.range (other.length + 2)).flatMap fun q =>
      k.links.filter fun l => decide (l.dst = o) && decide (l.dstPort = q)).map (redirect o w row.length)) = F ++ (first :: (R ++ O)) := by
    rw [List.map_append]
    congr 1
    · conv => rhs; rw [← List.map_id F]
      apply List.map_congr_left
      intro l hl
      have : l.dst ≠ o := by simpa using (List.mem_filter.1 hl).2
      simp [redirect, this]
    · rw [List.range_succ, List.flatMap_append, List.map_append, List.range_succ_eq_map, List.flatMap_cons, List.map_append]
      have r0 : (k.links.filter fun l => decide (l.dst = o) && decide (l.dstPort = 0)).map (redirect o w row.length) = [first] := by
        rw [filter_linked, hf 0 (by simp)]
        simp [redirect, first]
      have r1 : (((List.range other.length).map Nat.succ).flatMap fun q =>
          k.links.filter fun l => decide (l.dst = o) && decide (l.dstPort = q)).map (redirect o w row.length) = R := by
        rw [List.flatMap_map, List.map_flatMap]
        have : ∀ q ∈ List.range other.length, (k.links.filter fun l => decide (l.dst = o) && decide (l.dstPort = Nat.succ q)).map
            (redirect o w row.length) = [⟨(f (1 + q)).1, (f (1 + q)).2, o, row.length + q⟩] := by
          intro q hq
          have hq := List.mem_range.1 hq
          rw [filter_linked, hf (Nat.succ q) (by simp; omega), show 1 + q = Nat.succ q by omega]
          simp [redirect]
        rw [List.flatMap_def, List.map_congr_left this, ← List.flatMap_def, ← List.map_eq_flatMap]
      have r2 : ([other.length + 1].flatMap fun q =>
          k.links.filter fun l => decide (l.dst = o) && decide (l.dstPort = q)).map (redirect o w row.length) = O := by
        rw [List.flatMap_singleton, filter_linked, List.map_map]
        apply List.map_congr_left
        intro s _
        simp [redirect, hlen]
      rw [r0, r1, r2]; rfl
  refine List.Perm.trans ?_ (List.Perm.append_right U (q2 ▸ (q1.map (redirect o w row.length)).symm))
  simp only [List.append_assoc]
  refine List.Perm.append_left F ?_
  change (first :: (U ++ (R ++ O))).Perm (first :: ((R ++ O) ++ U))
  exact List.Perm.cons _ List.perm_append_comm

end Verif.Patch
