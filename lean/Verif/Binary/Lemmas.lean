import Verif.Binary.Codec

/-!
# Fields and lists: lemmas
-/
namespace Verif.Binary

theorem toBytes_length : ∀ w n, (toBytes w n).length = w
  | 0, _ => rfl
  | w + 1, n => by simp [toBytes, toBytes_length w]

theorem ofBytes_toBytes : ∀ w n, n < 256 ^ w → ofBytes (toBytes w n) = n
  | 0, n, h => by simp at h; simp [toBytes, ofBytes, h]
  | w + 1, n, h => by
    have h2 : n / 256 < 256 ^ w := by
      rw [Nat.div_lt_iff_lt_mul (by omega)]; rw [Nat.pow_succ] at h; omega
    simp only [toBytes, ofBytes, ofBytes_toBytes w _ h2, UInt8.toNat_ofNat']
    have : n % 256 % 2 ^ 8 = n % 256 := Nat.mod_eq_of_lt (by omega)
    omega

theorem putBytes_length : ∀ bs (d : List UInt8) p, (putBytes d p bs).length = d.length
  | [], _, _ => rfl
  | b :: bs, d, p => by simp [putBytes, putBytes_length bs]

theorem putBytes_outside : ∀ bs (d : List UInt8) p q, (q < p ∨ p + bs.length ≤ q) → (putBytes d p bs).getD q 0 = d.getD q 0
  | [], _, _, _, _ => rfl
  | b :: bs, d, p, q, h => by
    simp only [List.length_cons] at h
    rw [putBytes, putBytes_outside bs _ _ _ (by omega)]
    have : p ≠ q := by omega
    simp [List.getD_eq_getElem?_getD, List.getElem?_set, this]

theorem putBytes_inside : ∀ bs (d : List UInt8) p i, i < bs.length → p + bs.length ≤ d.length →
    (putBytes d p bs).getD (p + i) 0 = bs.getD i 0
  | [], _, _, _, h, _ => by cases h
  | b :: bs, d, p, 0, _, hd => by
    rw [List.length_cons] at hd
    rw [putBytes, putBytes_outside bs _ _ _ (by omega)]
    simp [List.getD_eq_getElem?_getD, List.getElem?_set, show p < d.length by omega]
  | b :: bs, d, p, i + 1, h, hd => by
    rw [List.length_cons] at h hd
    rw [putBytes, show p + (i + 1) = p + 1 + i by omega, putBytes_inside bs _ _ _ (by omega) (by simp; omega)]
    simp

theorem takeBytes_put_same {d bs : List UInt8} {p w : Nat} (hw : bs.length = w) (hd : p + w ≤ d.length) :
    takeBytes (putBytes d p bs) p w = bs := by
  refine List.ext_getElem (by simp [takeBytes, hw]) fun i h1 h2 => ?_
  have h3 : i < w := by simpa [takeBytes] using h1
  simp only [takeBytes, List.getElem_map, List.getElem_range]
  rw [putBytes_inside bs d p i (by omega) (by omega)]
  simp [List.getD_eq_getElem?_getD, h2]

theorem takeBytes_put_other {d bs : List UInt8} {p q w : Nat} (h : q + w ≤ p ∨ p + bs.length ≤ q) :
    takeBytes (putBytes d p bs) q w = takeBytes d q w := by
  refine List.map_congr_left fun i hi => ?_
  have := List.mem_range.1 hi
  exact putBytes_outside bs d p _ (by omega)

theorem takeBytes_zero {n q w : Nat} : ofBytes (takeBytes (List.replicate n 0) q w) = 0 := by
  unfold takeBytes
  have : ∀ l : List Nat, ofBytes (l.map fun i => (List.replicate n (0 : UInt8)).getD (q + i) 0) = 0 := by
    intro l
    induction l with
    | nil => rfl
    | cons a l ih =>
      simp only [List.map_cons, ofBytes, ih]
      have : (List.replicate n (0 : UInt8)).getD (q + a) 0 = 0 := by
        rw [List.getD_eq_getElem?_getD, List.getElem?_replicate]; split <;> rfl
      rw [this]; rfl
  exact this _

namespace Struct

variable {s : Struct} {j k : Nat}

theorem length_set16 {v} : (s.set16 k v).1.length = s.1.length := putBytes_length ..
theorem length_set32 {v} : (s.set32 k v).1.length = s.1.length := putBytes_length ..
theorem length_set64 {v} : (s.set64 k v).1.length = s.1.length := putBytes_length ..
theorem length_setPtr {v} : (s.setPtr k v).1.length = s.1.length := rfl
theorem length_init {w p : Nat} : (init w p).1.length = 8 * w := by simp [init]
theorem ptrs_set16 {v} : (s.set16 k v).2.length = s.2.length := rfl
theorem ptrs_set32 {v} : (s.set32 k v).2.length = s.2.length := rfl
theorem ptrs_set64 {v} : (s.set64 k v).2.length = s.2.length := rfl
theorem ptrs_setPtr {v} : (s.setPtr k v).2.length = s.2.length := by simp [setPtr]
theorem ptrs_init {w p : Nat} : (init w p).2.length = p := by simp [init]

theorem get16_set16 {v} (h : 2 * k + 2 ≤ s.1.length) : (s.set16 k v).get16 k = v := by
  unfold get16 set16
  rw [takeBytes_put_same (toBytes_length ..) h, ofBytes_toBytes _ _ v.toNat_lt]; simp

theorem get32_set32 {v} (h : 4 * k + 4 ≤ s.1.length) : (s.set32 k v).get32 k = v := by
  unfold get32 set32
  rw [takeBytes_put_same (toBytes_length ..) h, ofBytes_toBytes _ _ v.toNat_lt]; simp

theorem get64_set64 {v} (h : 8 * k + 8 ≤ s.1.length) : (s.set64 k v).get64 k = v := by
  unfold get64 set64
  rw [takeBytes_put_same (toBytes_length ..) h, ofBytes_toBytes _ _ v.toNat_lt]; simp

theorem get16_set16_ne {v} (h : 2 * j + 2 ≤ 2 * k ∨ 2 * k + 2 ≤ 2 * j) : (s.set16 k v).get16 j = s.get16 j := by
  unfold get16 set16; rw [takeBytes_put_other (by rw [toBytes_length]; exact h)]

theorem get16_set32 {v} (h : 2 * j + 2 ≤ 4 * k ∨ 4 * k + 4 ≤ 2 * j) : (s.set32 k v).get16 j = s.get16 j := by
  unfold get16 set32; rw [takeBytes_put_other (by rw [toBytes_length]; exact h)]

theorem get16_set64 {v} (h : 2 * j + 2 ≤ 8 * k ∨ 8 * k + 8 ≤ 2 * j) : (s.set64 k v).get16 j = s.get16 j := by
  unfold get16 set64; rw [takeBytes_put_other (by rw [toBytes_length]; exact h)]

theorem get32_set16 {v} (h : 4 * j + 4 ≤ 2 * k ∨ 2 * k + 2 ≤ 4 * j) : (s.set16 k v).get32 j = s.get32 j := by
  unfold get32 set16; rw [takeBytes_put_other (by rw [toBytes_length]; exact h)]

theorem get32_set32_ne {v} (h : 4 * j + 4 ≤ 4 * k ∨ 4 * k + 4 ≤ 4 * j) : (s.set32 k v).get32 j = s.get32 j := by
  unfold get32 set32; rw [takeBytes_put_other (by rw [toBytes_length]; exact h)]

theorem get16_setPtr {p} : (s.setPtr k p).get16 j = s.get16 j := rfl
theorem get32_setPtr {p} : (s.setPtr k p).get32 j = s.get32 j := rfl
theorem get64_setPtr {p} : (s.setPtr k p).get64 j = s.get64 j := rfl
theorem getPtr_set16 {v} : (s.set16 k v).getPtr j = s.getPtr j := rfl
theorem getPtr_set32 {v} : (s.set32 k v).getPtr j = s.getPtr j := rfl
theorem getPtr_set64 {v} : (s.set64 k v).getPtr j = s.getPtr j := rfl

theorem getPtr_setPtr {p} (h : k < s.2.length) : (s.setPtr k p).getPtr k = p := by
  simp [getPtr, setPtr, List.getD_eq_getElem?_getD, List.getElem?_set, h]

theorem getPtr_setPtr_ne {p} (h : k ≠ j) : (s.setPtr k p).getPtr j = s.getPtr j := by
  simp [getPtr, setPtr, List.getD_eq_getElem?_getD, List.getElem?_set, h]

theorem get16_init {w p : Nat} : (init w p).get16 j = 0 := by unfold get16 init; rw [takeBytes_zero]; rfl
theorem get32_init {w p : Nat} : (init w p).get32 j = 0 := by unfold get32 init; rw [takeBytes_zero]; rfl

theorem getPtr_init {w p : Nat} : (init w p).getPtr j = .null := by
  unfold getPtr init; rw [List.getD_eq_getElem?_getD, List.getElem?_replicate]; split <;> rfl

end Struct

theorem text_ofText (s : String) : (Ptr.ofText s).text = some s := by
  simp only [Ptr.ofText, Ptr.text, List.getLast?_append, List.getLast?_singleton, Option.some_or, if_true, List.dropLast_concat]
  have e : (⟨(s.toUTF8.data.toList).toArray⟩ : ByteArray) = s.toUTF8 := by simp
  rw [e]
  unfold String.fromUTF8?
  rw [dif_pos (show s.toUTF8.IsValidUTF8 from s.isValidUTF8)]
  rfl

theorem collect_map {α β γ : Type} {f : β → Option γ} {g : α → β} {k : α → γ} :
    ∀ {l : List α}, (∀ x ∈ l, f (g x) = some (k x)) → collect f (l.map g) = some (l.map k)
  | [], _ => rfl
  | a :: l, h => by
    simp only [List.map_cons, collect, h a (List.mem_cons_self ..), collect_map fun x hx => h x (List.mem_cons_of_mem _ hx)]

theorem collect_round {α β : Type} {f : β → Option α} {g : α → Option β} :
    ∀ {l : List α}, (∀ x ∈ l, ∃ y, g x = some y ∧ f y = some x) → ∃ ys, collect g l = some ys ∧ collect f ys = some l
  | [], _ => ⟨[], rfl, rfl⟩
  | a :: l, h => by
    obtain ⟨y, h1, h2⟩ := h a (List.mem_cons_self ..)
    obtain ⟨ys, h3, h4⟩ := collect_round fun x hx => h x (List.mem_cons_of_mem _ hx)
    exact ⟨y :: ys, by simp only [collect, h1, h3], by simp only [collect, h2, h4]⟩

theorem collect_mem {α β : Type} {f : α → Option β} {P : β → Prop} (hf : ∀ x y, f x = some y → P y) :
    ∀ {l : List α} {ys : List β}, collect f l = some ys → ∀ y ∈ ys, P y
  | [], _, e => by cases e; simp
  | a :: l, ys, e => by
    unfold collect at e
    cases h1 : f a with
    | none => rw [h1] at e; cases e
    | some y =>
      cases h2 : collect f l with
      | none => rw [h1, h2] at e; cases e
      | some zs =>
        rw [h1, h2] at e; cases e
        intro z hz
        cases hz with
        | head => exact hf _ _ h1
        | tail _ hz => exact collect_mem hf h2 z hz

end Verif.Binary
