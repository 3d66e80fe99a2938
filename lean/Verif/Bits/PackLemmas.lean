import Verif.Bits.Pack
import Verif.Bits.PropsCodec

/-!
# Layout of the packed weights
-/

namespace Verif.Bits

/-- The template arguments that compile and pass the assertions. -/
structure Cfg.Ok (c : Cfg) : Prop where
  bits : 1 ≤ c.bits ∧ c.bits ≤ 8
  size : c.kr * c.nr = 32 ∨ c.kr * c.nr = 64 ∨ c.kr * c.nr = 128
  sr : 0 < c.sr ∧ c.sr ∣ c.kr
  lut : c.lut = true → c.bits ≤ 4 ∧ c.kr * c.nr = 128

/-- A value (or table index) that fits the width. -/
def Cfg.Fits (c : Cfg) (b : Byte) : Prop :=
  if c.lut then b.toNat < 2 ^ c.bits else -(2 ^ (c.bits - 1)) ≤ b.toInt ∧ b.toInt < 2 ^ (c.bits - 1)

theorem Cfg.Ok.nr_pos {c : Cfg} (h : c.Ok) : 0 < c.nr := by
  rcases Nat.eq_zero_or_pos c.nr with h0 | h0
  · have := h.size
    rw [h0] at this
    omega
  · exact h0

theorem Cfg.Ok.kr_pos {c : Cfg} (h : c.Ok) : 0 < c.kr := by
  rcases Nat.eq_zero_or_pos c.kr with h0 | h0
  · have := h.size
    rw [h0] at this
    omega
  · exact h0

theorem fits_zero {c : Cfg} : c.Fits 0 := by
  unfold Cfg.Fits
  split
  · exact Nat.two_pow_pos _
  · show -(2 ^ (c.bits - 1)) ≤ (0 : Int) ∧ (0 : Int) < 2 ^ (c.bits - 1)
    have : (0 : Int) < 2 ^ (c.bits - 1) := by positivity
    omega

theorem flatMap_get {β : Type} (f : Nat → List β) (n m : Nat) (h : ∀ i, i < n → (f i).length = m) (i r : Nat) (hi : i < n)
    (hr : r < m) : ((List.range n).flatMap f)[i * m + r]? = (f i)[r]? := by
  induction n with
  | zero => omega
  | succ n ih =>
    have hl : ((List.range n).flatMap f).length = n * m := by
      rw [flatMap_length f m _ (fun x hx => h x (by have := List.mem_range.mp hx; omega)), List.length_range]
    rw [List.range_succ, List.flatMap_append]
    by_cases hin : i < n
    · have : i * m + r < n * m := by
        have : (i + 1) * m ≤ n * m := Nat.mul_le_mul_right _ hin
        rw [Nat.succ_mul] at this
        omega
      rw [List.getElem?_append_left (by omega)]
      exact ih (fun i hi => h i (by omega)) hin
    · obtain rfl : i = n := by omega
      rw [List.getElem?_append_right (by omega), hl]
      simp

theorem packValues_get {c : Cfg} (v : Nat → Byte) {s j x : Nat} (hs : s < c.sr) (hj : j < c.nr) (hx : x < c.kr / c.sr) :
    (packValues c v).getD (s * (c.nr * (c.kr / c.sr)) + j * (c.kr / c.sr) + x) 0 = v (j * c.kr + s * (c.kr / c.sr) + x) := by
  rw [List.getD_eq_getElem?_getD, packValues, Nat.add_assoc]
  rw [flatMap_get _ c.sr (c.nr * (c.kr / c.sr)) ?_ s _ hs ?_, flatMap_get _ c.nr (c.kr / c.sr) ?_ j x hj hx]
  · rw [List.getElem?_map, List.getElem?_range hx]
    rfl
  · intro i _
    simp
  · intro i _
    rw [flatMap_length _ (c.kr / c.sr) _ (fun x _ => by simp), List.length_range]
  · have : (j + 1) * (c.kr / c.sr) ≤ c.nr * (c.kr / c.sr) := Nat.mul_le_mul_right _ hj
    rw [Nat.succ_mul] at this
    omega

theorem packValues_fits {c : Cfg} {v : Nat → Byte} (h : ∀ i, c.Fits (v i)) (i : Nat) : c.Fits ((packValues c v).getD i 0) := by
  rw [List.getD_eq_getElem?_getD]
  cases hx : (packValues c v)[i]? with
  | none => exact fits_zero
  | some b =>
    have := List.mem_of_getElem? hx
    simp only [packValues, List.mem_flatMap, List.mem_map] at this
    obtain ⟨_, _, _, _, _, _, rfl⟩ := this
    exact h _

theorem codec_ok {c : Cfg} (h : c.Ok) : ∃ cd, codecOf c = some cd ∧ cd.n = c.kr * c.nr ∧ 8 * cd.b = c.bits * (c.kr * c.nr) ∧
    ∀ u : Nat → Byte, (∀ i, c.Fits (u i)) → Reads (blockW cd) (block cd u) [] fun y => ∀ i, i < c.kr * c.nr → y i = u i := by
  obtain ⟨cd, h1, h2, h3, h4⟩ := uintN_ok h.bits h.size
  cases hl : c.lut with
  | true =>
    have h128 := (h.lut hl).2
    refine ⟨uint128 c.bits, by simp [codecOf, hl, h128], ?_⟩
    obtain rfl : uint128 c.bits = cd := by rw [uintN, if_pos h128, Option.some.injEq] at h1; exact h1
    refine ⟨h2, h3, fun u hu => ?_⟩
    rw [← h2]
    refine Reads.block fun mem hm i hi => h4 u (fun i _ => ?_) mem hm i hi
    have := hu i
    rw [Cfg.Fits, if_pos hl] at this
    exact this
  | false =>
    refine ⟨lowbit c.bits cd, by simp [codecOf, hl, h1], h2, h3, fun u hu => ?_⟩
    rw [← h2]
    refine Reads.block fun mem hm i hi => lowbit_ok h.bits h4 u (fun i _ => ?_) mem hm i hi
    have := hu i
    rw [Cfg.Fits, if_neg (by simp [hl])] at this
    exact this

/-! ## Sizes -/

/-- The arguments that pass the assertions of `pack_weights`. -/
structure Wt.Ok (c : Cfg) (w : Wt) : Prop where
  gs : 0 < w.gs
  kr : c.kr ∣ w.gs
  k : w.gs ∣ w.k

theorem steps_dvd {a b : Nat} (hb : 0 < b) (h : b ∣ a) : steps a b = a / b := by
  obtain ⟨q, rfl⟩ := h
  rw [steps, Nat.mul_div_cancel_left _ hb]
  rw [Nat.add_sub_assoc (by omega), Nat.mul_add_div hb, Nat.div_eq_of_lt (by omega), Nat.add_zero]

theorem block_length (cd : Codec) (u : Nat → Byte) : (block cd u).length = cd.b := by simp [block]

theorem words_length (n : Nat) (x : Nat → BitVec 32) : ((List.range n).flatMap fun j => le32 (x j)).length = 4 * n := by
  rw [flatMap_length _ 4 _ (fun _ _ => le32_length _), List.length_range, Nat.mul_comm]

theorem zeros_length (c : Cfg) (w : Wt) (n g : Nat) : (zeroBytes c w n g).length = if w.zeros.isSome then 4 * c.nr else 0 := by
  unfold zeroBytes
  cases w.zeros with
  | none => rfl
  | some z => exact words_length _ _

theorem bias_length (c : Cfg) (w : Wt) (n : Nat) : (biasBytes c w n).length = if w.bias.isSome then 4 * c.nr else 0 := by
  unfold biasBytes
  cases w.bias with
  | none => rfl
  | some b => exact words_length _ _

theorem group_length {c : Cfg} {w : Wt} {cd : Codec} (h : c.Ok) (hw : w.Ok c) (hb : 8 * cd.b = c.bits * (c.kr * c.nr)) (n g : Nat) :
    8 * (groupBytes c w cd n g).length = 8 * (if c.lut ∧ g = 0 then 16 else 0) + c.nr * (c.bits * w.gs) + 32 * c.nr + 32 * c.nr
      + 8 * (if w.zeros.isSome then 4 * c.nr else 0) := by
  have e : 8 * (steps w.gs c.kr * cd.b) = c.nr * (c.bits * w.gs) := by
    rw [steps_dvd h.kr_pos hw.kr]
    obtain ⟨q, hq⟩ := hw.kr
    rw [hq, Nat.mul_div_cancel_left _ h.kr_pos, show 8 * (q * cd.b) = q * (8 * cd.b) by ring, hb]
    ring
  unfold groupBytes
  simp only [List.length_append]
  rw [zeros_length, words_length, words_length, flatMap_length _ cd.b _ (fun _ _ => block_length _ _), List.length_range]
  rw [show (if c.lut ∧ g = 0 then (List.range 16).map (lutAt c w n) else []).length = if c.lut ∧ g = 0 then 16 else 0 by
    split <;> simp]
  generalize steps w.gs c.kr * cd.b = a at *
  generalize c.nr * (c.bits * w.gs) = b at *
  omega

theorem flatMap_sum {β : Type} (f : Nat → List β) (m : Nat → Nat) (n : Nat) (h : ∀ i, i < n → (f i).length = m i) :
    ((List.range n).flatMap f).length = ((List.range n).map m).sum := by
  rw [List.length_flatMap]
  congr 1
  apply List.map_congr_left
  intro i hi
  exact h i (List.mem_range.mp hi)

/-- The bytes of one tile. -/
def tileSize (c : Cfg) (w : Wt) : Nat :=
  c.nr * sizePerN w.k w.gs c.bits w.zeros.isSome w.bias.isSome + (if c.lut ∧ 0 < w.groups then 16 else 0)

theorem groups_length {c : Cfg} {w : Wt} {cd : Codec} (h : c.Ok) (hw : w.Ok c) (hb : 8 * cd.b = c.bits * (c.kr * c.nr)) (n : Nat) :
    ∀ G, 8 * ((List.range G).flatMap (groupBytes c w cd n)).length = 8 * (if c.lut ∧ 0 < G then 16 else 0)
      + G * (c.nr * (c.bits * w.gs) + 32 * c.nr + 32 * c.nr + 8 * (if w.zeros.isSome then 4 * c.nr else 0)) := by
  intro G
  induction G with
  | zero => simp
  | succ G ih =>
    rw [List.range_succ, List.flatMap_append, List.length_append, Nat.mul_add, ih, Nat.succ_mul]
    simp only [List.flatMap_cons, List.flatMap_nil, List.append_nil]
    rw [group_length h hw hb]
    by_cases hl : c.lut = true
    · by_cases h0 : G = 0
      · subst h0
        simp [hl]
        ring
      · have : 0 < G := by omega
        simp [hl, h0, this]
        ring
    · simp [hl]
      ring

theorem tile_length {c : Cfg} {w : Wt} {cd : Codec} (h : c.Ok) (hw : w.Ok c) (hb : 8 * cd.b = c.bits * (c.kr * c.nr))
    (h8 : 8 ∣ w.k) (n : Nat) : (tileBytes c w cd n).length = tileSize c w := by
  have hg := groups_length h hw hb n w.groups
  obtain ⟨G, hG⟩ := hw.k
  have hgr : w.groups = G := by rw [Wt.groups, hG, Nat.mul_div_cancel_left _ hw.gs]
  rw [tileBytes, List.length_append, bias_length, tileSize, sizePerN]
  rw [show w.k / w.gs = w.groups from rfl]
  obtain ⟨m, hm⟩ := h8
  rw [hm, Nat.mul_div_cancel_left _ (by decide)]
  have e : w.groups * (c.nr * (c.bits * w.gs)) = 8 * (c.nr * (m * c.bits)) := by
    rw [hgr]
    calc G * (c.nr * (c.bits * w.gs)) = c.nr * (c.bits * (w.gs * G)) := by ring
      _ = _ := by rw [← hG, hm]; ring
  rw [Nat.mul_add, Nat.mul_add, Nat.mul_add, e] at hg
  have hz : w.groups * (8 * (if w.zeros.isSome then 4 * c.nr else 0)) = 8 * (c.nr * (if w.zeros.isSome then 4 * w.groups else 0)) := by
    split <;> ring
  have hbb : (if w.bias.isSome then 4 * c.nr else 0) = c.nr * (if w.bias.isSome then 4 else 0) := by split <;> ring
  rw [hz] at hg
  rw [hbb]
  simp only [Nat.mul_add]
  have e4 : w.groups * (32 * c.nr) = 8 * (c.nr * (4 * w.groups)) := by ring
  rw [e4] at hg
  generalize c.nr * (m * c.bits) = x1 at *
  generalize c.nr * (4 * w.groups) = x2 at *
  generalize c.nr * (if w.zeros.isSome then 4 * w.groups else 0) = x3 at *
  omega

end Verif.Bits
