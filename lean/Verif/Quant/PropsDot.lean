import Verif.Quant.DotLemmas
import Verif.Quant.PropsErr

/-! C131: quantised dot products, `q4_0` and `q8_0`. -/

namespace Verif.Quant

open Verif.Kern (run Upd)

/-- Signed bytes without `-128`, as `quantize_row_q8_0` produces them. -/
def Q80.Sym (b : Q80) : Prop := ∀ j < 32, -127 ≤ b.qs j ∧ b.qs j ≤ 127

theorem Q80.Sym.abs {b : Q80} (h : b.Sym) : ∀ j < 32, |b.qs j| ≤ 127 := fun j hj => abs_le.mpr (h j hj)
theorem Q80.Bytes.abs {b : Q80} (h : b.Bytes) : ∀ j < 32, |b.qs j| ≤ 128 := fun j hj => by
  have := h j hj; rw [abs_le]; omega

theorem neonLow_eq {b : Q40} (hb : b.Bytes) {t : Nat} (ht : t < 16) :
    neonLow b.qs t = b.code t ∧ |neonLow b.qs t| ≤ 8 := by
  have h := hb t ht
  have e : neonLow b.qs t = b.code t := by
    unfold neonLow Q40.code
    rw [if_pos ht, and15]
    exact i8_eq (by omega) (by omega)
  refine ⟨e, ?_⟩
  rw [e]; unfold Q40.code; rw [if_pos ht, abs_le]; omega

theorem neonHigh_eq {b : Q40} (hb : b.Bytes) {t : Nat} (ht : t < 16) :
    neonHigh b.qs t = b.code (16 + t) ∧ |neonHigh b.qs t| ≤ 8 := by
  have h := hb t ht
  have e : neonHigh b.qs t = b.code (16 + t) := by
    unfold neonHigh Q40.code
    rw [if_neg (by omega), shr4, Nat.add_sub_cancel_left]
    exact i8_eq (by omega) (by omega)
  refine ⟨e, ?_⟩
  rw [e]; unfold Q40.code; rw [if_neg (by omega), Nat.add_sub_cancel_left, abs_le]; omega

theorem srli16_and {k m : Nat} {v : Nat → Nat} {t : Nat} (h : ∀ u, u / 2 = t / 2 → v u < 256) (hk : k + m ≤ 8) :
    srli16 k v t % 2 ^ m = v t / 2 ^ k % 2 ^ m := by
  have hkm : 2 ^ k * 2 ^ m ≤ 256 := by
    rw [← Nat.pow_add]; exact (Nat.pow_le_pow_right (by norm_num) hk).trans (by norm_num)
  have hd : 2 ^ k * 2 ^ m ∣ 256 := by
    rw [← Nat.pow_add, show 256 = 2 ^ 8 from rfl]; exact Nat.pow_dvd_pow 2 hk
  have hm : (2 ^ m) ∣ 256 := (Dvd.intro_left _ rfl).trans hd
  unfold srli16
  have h0 := h (2 * (t / 2)) (by omega)
  have h1 := h (2 * (t / 2) + 1) (by omega)
  rw [Nat.mod_mod_of_dvd _ hm, Nat.shiftRight_eq_div_pow, Nat.shiftRight_eq_div_pow]
  have e : t % 2 = 0 ∨ t % 2 = 1 := by omega
  rcases e with e | e
  · have et : 2 * (t / 2) = t := by omega
    rw [e, et]
    simp only [Nat.mul_zero, pow_zero, Nat.div_one]
    obtain ⟨c, hc⟩ := hd
    have : v t + 256 * v (t + 1) = v t + 2 ^ k * (2 ^ m * (c * v (t + 1))) := by rw [hc]; ring
    rw [this, Nat.add_mul_div_left _ _ (by positivity), Nat.add_mul_mod_self_left]
  · have et : 2 * (t / 2) + 1 = t := by omega
    rw [e, et, Nat.div_div_eq_div_mul, Nat.mul_comm (2 ^ k), ← Nat.div_div_eq_div_mul]
    norm_num
    rw [Nat.add_mul_div_left _ _ (by norm_num), Nat.div_eq_of_lt h0, Nat.zero_add]

theorem avxNibbles_eq {b : Q40} (hb : b.Bytes) {t : Nat} (ht : t < 32) : avxNibbles b.qs t = b.code t := by
  unfold avxNibbles Q40.code
  by_cases h : t < 16
  · have := hb t h
    rw [if_pos h, if_pos h, and15]
    exact i8_eq (by omega) (by omega)
  · have h2 := hb (t - 16) (by omega)
    rw [if_neg h, if_neg h, and15]
    have e := srli16_and (k := 4) (m := 4) (v := b.qs) (t := t - 16) (fun u hu => hb u (by omega)) (by norm_num)
    norm_num at e
    rw [e]
    have : b.qs (t - 16) / 16 % 16 = b.qs (t - 16) / 16 := by omega
    rw [this]
    exact i8_eq (by omega) (by omega)

theorem code_abs {b : Q40} (hb : b.Bytes) : ∀ j < 32, |b.code j| ≤ 128 := by
  intro j hj
  by_cases h : j < 16
  · rw [← (neonLow_eq hb h).1]; exact (neonLow_eq hb h).2.trans (by norm_num)
  · have e : 16 + (j - 16) = j := by omega
    have := neonHigh_eq hb (t := j - 16) (by omega)
    rw [e] at this
    rw [← this.1]; exact this.2.trans (by norm_num)

/-- Scales out, integers in. -/
theorem block_sum {w : Nat} (dx dy : ℝ) (a b : Nat → Int) :
    dx * dy * ((∑ j ∈ Finset.range w, a j * b j : Int) : ℝ) = ∑ j ∈ Finset.range w, dx * (a j : ℝ) * (dy * (b j : ℝ)) := by
  push_cast
  rw [Finset.mul_sum]
  exact Finset.sum_congr rfl fun j _ => by ring

/-- The integer part of one NEON block of `q4_0 · q8_0`. -/
theorem neon40_sum {b : Q40} (hb : b.Bytes) {c : Q80} (hc : c.Bytes) :
    (∑ t ∈ Finset.range 16, neonLow b.qs t * c.qs t) + ∑ t ∈ Finset.range 16, neonHigh b.qs t * c.qs (16 + t) =
      ∑ j ∈ Finset.range 32, b.code j * c.qs j := by
  rw [sum32]
  congr 1
  · exact Finset.sum_congr rfl fun t ht => by rw [(neonLow_eq hb (Finset.mem_range.mp ht)).1]
  · exact Finset.sum_congr rfl fun t ht => by rw [(neonHigh_eq hb (Finset.mem_range.mp ht)).1]

/-- The value of a row product, block by block. -/
theorem dotR_q40 (P : Plat) (nb : Nat) (x : Nat → Q40) (y : Nat → Q80) :
    dotR (32 * nb) (rowVal 32 (Q40.val P) x) (rowVal 32 (Q80.val P) y) =
      ∑ i ∈ Finset.range nb, P.load (x i).d * P.load (y i).d * ((∑ j ∈ Finset.range 32, (x i).code j * (y i).qs j : Int) : ℝ) := by
  rw [dotR_rows 32 nb (by norm_num)]
  exact Finset.sum_congr rfl fun i _ => (block_sum ..).symm

theorem dotR_q80 (P : Plat) (nb : Nat) (x y : Nat → Q80) :
    dotR (32 * nb) (rowVal 32 (Q80.val P) x) (rowVal 32 (Q80.val P) y) =
      ∑ i ∈ Finset.range nb, P.load (x i).d * P.load (y i).d * ((∑ j ∈ Finset.range 32, (x i).qs j * (y i).qs j : Int) : ℝ) := by
  rw [dotR_rows 32 nb (by norm_num)]
  exact Finset.sum_congr rfl fun i _ => (block_sum ..).symm

theorem pair_q40 (P : Plat) (nb : Nat) {x : Nat → Q40} {y : Nat → Q80} (hx : ∀ i < 2 * ((nb + 1) / 2), (x i).Bytes)
    (hy : ∀ i < 2 * ((nb + 1) / 2), (y i).Bytes) (q : Nat → Nat → Int)
    (hq : ∀ i < 2 * ((nb + 1) / 2), ∑ l ∈ Finset.range 4, q i l =
      (∑ t ∈ Finset.range 16, neonLow (x i).qs t * (y i).qs t) + ∑ t ∈ Finset.range 16, neonHigh (x i).qs t * (y i).qs (16 + t)) :
    pairLoop nb (fun i => P.load (x i).d * P.load (y i).d) q =
      dotR (32 * (2 * ((nb + 1) / 2))) (rowVal 32 (Q40.val P) x) (rowVal 32 (Q80.val P) y) := by
  rw [pairLoop_eq, dotR_q40]
  refine Finset.sum_congr rfl fun i hi => ?_
  have hi := Finset.mem_range.mp hi
  rw [hq i hi, neon40_sum (hx i hi) (hy i hi)]

/-- With NEON, the value is the dot product over an even number of blocks. -/
theorem dotQ40_neon {tg : Simd} (htg : tg = .neonDotprod ∨ tg = .neonPlain) (P : Plat) (n s : Nat) {x : Nat → Q40} {y : Nat → Q80}
    (hx : ∀ i < 2 * ((n / 32 + 1) / 2), (x i).Bytes) (hy : ∀ i < 2 * ((n / 32 + 1) / 2), (y i).Bytes) :
    dotQ40 tg P n s x y =
      [Upd.put s (dotR (32 * (2 * ((n / 32 + 1) / 2))) (rowVal 32 (Q40.val P) x) (rowVal 32 (Q80.val P) y))] := by
  rcases htg with rfl | rfl
  · unfold dotQ40
    simp only
    rw [pair_q40 P (n / 32) hx hy _ fun i hi => neonDot_sum (fun t ht => (neonLow_eq (hx i hi) ht).2.trans (by norm_num))
      (fun t ht => (neonHigh_eq (hx i hi) ht).2.trans (by norm_num)) (hy i hi).abs]
  · unfold dotQ40
    simp only
    rw [pair_q40 P (n / 32) hx hy _ fun i hi => neonMull_sum (fun t ht => (neonLow_eq (hx i hi) ht).2.trans (by norm_num))
      (fun t ht => (neonHigh_eq (hx i hi) ht).2.trans (by norm_num)) (hy i hi).abs]

/-- `q4_0 · q8_0`: with AVX2, and with NEON when the number of blocks is even, the call writes exactly `*s`, the dot
product of the two dequantised rows.  The row `y` is any row without the byte `-128`, in particular any
row written by `quantize_row_q8_0` (C130). -/
theorem C131_dot_q4_0_partial {tg : Simd} (P : Plat) (n s : Nat) {x : Nat → Q40} {y : Nat → Q80}
    (htg : tg = .avx2 ∨ ((tg = .neonDotprod ∨ tg = .neonPlain) ∧ n / 32 % 2 = 0))
    (hx : ∀ i < n / 32, (x i).Bytes) (hy : ∀ i < n / 32, (y i).Sym) :
    dotQ40 tg P n s x y =
      [Upd.put s (dotR (32 * (n / 32)) (rowVal 32 (Q40.val P) x) (rowVal 32 (Q80.val P) y))] := by
  rcases htg with rfl | ⟨htg, hev⟩
  · unfold dotQ40
    simp only
    rw [hsum8_eq, dotR_q40]
    congr 2
    refine Finset.sum_congr rfl fun i hi => ?_
    have hi := Finset.mem_range.mp hi
    have e : ∑ l ∈ Finset.range 8, mulSumI8 (avxNibbles (x i).qs) (y i).qs l = ∑ j ∈ Finset.range 32, (x i).code j * (y i).qs j := by
      rw [mulSumI8_eq (fun j hj => by rw [avxNibbles_eq (hx i hi) hj]; exact code_abs (hx i hi) j hj) (hy i hi).abs]
      exact Finset.sum_congr rfl fun j hj => by rw [avxNibbles_eq (hx i hi) (Finset.mem_range.mp hj)]
    rw [e]
  · have e : 2 * ((n / 32 + 1) / 2) = n / 32 := by omega
    have := dotQ40_neon htg P n s (x := x) (y := y) (fun i hi => hx i (by omega)) (fun i hi j hj => by
      have := hy i (by omega) j hj; omega)
    rwa [e] at this

/-- Violation: with NEON and an odd number of blocks the product also takes in the block behind each row. -/
theorem C131_odd_blocks_violated {tg : Simd} (htg : tg = .neonDotprod ∨ tg = .neonPlain) (P : Plat) (n s : Nat)
    {x : Nat → Q40} {y : Nat → Q80} (hodd : n / 32 % 2 = 1) (hx : ∀ i < n / 32 + 1, (x i).Bytes) (hy : ∀ i < n / 32 + 1, (y i).Bytes) :
    dotQ40 tg P n s x y = [Upd.put s (dotR (32 * (n / 32)) (rowVal 32 (Q40.val P) x) (rowVal 32 (Q80.val P) y) +
      ∑ j ∈ Finset.range 32, (x (n / 32)).val P j * (y (n / 32)).val P j)] := by
  have e : 2 * ((n / 32 + 1) / 2) = n / 32 + 1 := by omega
  have := dotQ40_neon htg P n s (x := x) (y := y) (fun i hi => hx i (by omega)) (fun i hi => hy i (by omega))
  rw [this, e, dotR_rows 32 _ (by norm_num), dotR_rows 32 _ (by norm_num), Finset.sum_range_succ]

/-- Violation: with the int8 matrix multiply the call also overwrites the float behind `*s`. -/
theorem C131_i8mm_q4_0_violated (P : Plat) (n s : Nat) {x : Nat → Q40} {y : Nat → Q80}
    (hx : ∀ i < n / 32, (x i).Bytes) (hy : ∀ i < n / 32, (y i).Bytes) (m : Nat → ℝ) :
    run (dotQ40 .neonI8mm P n s x y) m s = dotR (32 * (n / 32)) (rowVal 32 (Q40.val P) x) (rowVal 32 (Q80.val P) y) ∧
    run (dotQ40 .neonI8mm P n s x y) m (s + 1) = dotR (32 * (n / 32)) (rowVal 32 (Q40.val P) x) (rowVal 32 (Q80.val P) y) := by
  have key : ∀ l < 4, fmaLanes (n / 32) (fun i _ => P.load (x i).d * P.load (y i).d) (fun i =>
      mmla (neonLow (x i).qs) (neonHigh (x i).qs) (neonLow (x i).qs) (neonHigh (x i).qs) (y i).qs (y i).qs) l =
      dotR (32 * (n / 32)) (rowVal 32 (Q40.val P) x) (rowVal 32 (Q80.val P) y) := by
    intro l hl
    rw [fmaLanes_eq, dotR_q40]
    refine Finset.sum_congr rfl fun i hi => ?_
    have hi := Finset.mem_range.mp hi
    have a1 : ∀ t < 16, |neonLow (x i).qs t| ≤ 128 := fun t ht => (neonLow_eq (hx i hi) ht).2.trans (by norm_num)
    have a2 : ∀ t < 16, |neonHigh (x i).qs t| ≤ 128 := fun t ht => (neonHigh_eq (hx i hi) ht).2.trans (by norm_num)
    have := mmla_lane a1 a2 a1 a2 (hy i hi).abs (hy i hi).abs (r := l / 2) (c := l % 2) (by omega) (by omega)
    have e : 2 * (l / 2) + l % 2 = l := by omega
    rw [e] at this
    rw [this]
    simp only [ite_self]
    rw [neon40_sum (hx i hi) (hy i hi)]
  unfold dotQ40 mmlaStores
  simp only [key 0 (by norm_num), key 1 (by norm_num), key 2 (by norm_num), key 3 (by norm_num)]
  constructor <;> simp [run, Upd.put, Function.update]

/-- Violation: with neither AVX2 nor NEON the call writes nothing. -/
theorem C131_no_simd_violated (P : Plat) (n s bs : Nat) (x : Nat → Q40) (x' y x1 y1 : Nat → Q80) :
    dotQ40 .none P n s x y = [] ∧ dotQ80 .none P n s bs x' y x1 y1 = [] := ⟨rfl, rfl⟩

/-- `q8_0 · q8_0`. -/
theorem C131_dot_q8_0_partial {tg : Simd} (P : Plat) (n s bs : Nat) {x y : Nat → Q80} (x1 y1 : Nat → Q80)
    (htg : tg = .avx2 ∨ ((tg = .neonDotprod ∨ tg = .neonPlain) ∧ n / 32 % 2 = 0))
    (hx : ∀ i < n / 32, (x i).Bytes) (hy : ∀ i < n / 32, (y i).Sym) :
    dotQ80 tg P n s bs x y x1 y1 =
      [Upd.put s (dotR (32 * (n / 32)) (rowVal 32 (Q80.val P) x) (rowVal 32 (Q80.val P) y))] := by
  have hyb : ∀ i < n / 32, ∀ j < 32, |(y i).qs j| ≤ 128 := fun i hi j hj => ((hy i hi).abs j hj).trans (by norm_num)
  rcases htg with rfl | ⟨htg, hev⟩
  · unfold dotQ80
    simp only
    rw [hsum8_eq, dotR_q80]
    congr 2
    refine Finset.sum_congr rfl fun i hi => ?_
    have hi := Finset.mem_range.mp hi
    rw [mulSumI8_eq (hx i hi).abs (hy i hi).abs]
  · have e : 2 * ((n / 32 + 1) / 2) = n / 32 := by omega
    have a1 : ∀ i < n / 32, ∀ t < 16, |(x i).qs t| ≤ 128 := fun i hi t ht => (hx i hi).abs t (by omega)
    have a2 : ∀ i < n / 32, ∀ t < 16, |(fun t => (x i).qs (16 + t)) t| ≤ 128 := fun i hi t ht => (hx i hi).abs _ (by omega)
    have b1 : ∀ i < n / 32, ∀ t < 16, |(y i).qs t| ≤ 128 := fun i hi t ht => hyb i hi t (by omega)
    have b2 : ∀ i < n / 32, ∀ t < 16, |(fun t => (y i).qs (16 + t)) t| ≤ 128 := fun i hi t ht => hyb i hi _ (by omega)
    have small : ∀ {a b : Nat → Int}, (∀ t < 16, |a t| ≤ 128) → (∀ t < 16, |b t| ≤ 128) → ∀ l < 4,
        |vdot (fun _ => 0) a b l| ≤ 1000000000 := by
      intro a b ha hb l hl
      rw [vdot_eq (C := 0) (by simp) (by norm_num) ha hb hl, zero_add]
      have := sum_bound (n := 4) (f := fun t => a (4 * l + t) * b (4 * l + t)) (B := 128 * 128)
        fun t ht => mul_bound (ha _ (by omega)) (hb _ (by omega))
      exact this.trans (by norm_num)
    rcases htg with rfl | rfl
    · unfold dotQ80
      simp only
      rw [pairLoop_eq, e, dotR_q80]
      congr 2
      refine Finset.sum_congr rfl fun i hi => ?_
      have hi := Finset.mem_range.mp hi
      rw [vadd32_sum (small (a1 i hi) (b1 i hi)) (small (a2 i hi) (b2 i hi)), vdot_sum (a1 i hi) (b1 i hi),
        vdot_sum (a2 i hi) (b2 i hi), sum32]
    · unfold dotQ80
      simp only
      rw [pairLoop_eq, e, dotR_q80]
      congr 2
      refine Finset.sum_congr rfl fun i hi => ?_
      have hi := Finset.mem_range.mp hi
      have c1 : ∀ l < 4, |vdotMull (fun _ => 0) (x i).qs (y i).qs l| ≤ 1000000000 := fun l hl => by
        rw [vdotMull_lane (a1 i hi) (b1 i hi) hl]; exact (paddl_pair (a1 i hi) (b1 i hi) hl).2.trans (by norm_num)
      have c2 : ∀ l < 4, |vdotMull (fun _ => 0) (fun t => (x i).qs (16 + t)) (fun t => (y i).qs (16 + t)) l| ≤ 1000000000 := fun l hl => by
        rw [vdotMull_lane (a2 i hi) (b2 i hi) hl]; exact (paddl_pair (a2 i hi) (b2 i hi) hl).2.trans (by norm_num)
      rw [vadd32_sum c1 c2, Finset.sum_congr rfl fun l hl => vdotMull_lane (a1 i hi) (b1 i hi) (Finset.mem_range.mp hl),
        Finset.sum_congr rfl fun l hl => vdotMull_lane (a2 i hi) (b2 i hi) (Finset.mem_range.mp hl),
        paddl_sum (a1 i hi) (b1 i hi), paddl_sum (a2 i hi) (b2 i hi), sum32]

/-- Violation: the function table calls this seven-argument function through a four-argument pointer
(`vec_dot_type.cpp` L274), so with the int8 matrix multiply `bs`, `bx` and `by` are whatever the registers hold.  Even when
`bs` is 0 the value left at `*s` is the product with the row at the stray offset `by`. -/
theorem C131_i8mm_q8_0_violated (P : Plat) (n s : Nat) {x y x1 y1 : Nat → Q80}
    (hx : ∀ i < n / 32, (x i).Bytes) (hy : ∀ i < n / 32, (y i).Bytes) (hx1 : ∀ i < n / 32, (x1 i).Bytes) (hy1 : ∀ i < n / 32, (y1 i).Bytes)
    (m : Nat → ℝ) :
    run (dotQ80 .neonI8mm P n s 0 x y x1 y1) m s = dotR (32 * (n / 32)) (rowVal 32 (Q80.val P) x) (rowVal 32 (Q80.val P) y1) := by
  have key : fmaLanes (n / 32)
      (fun i l => P.load (if l / 2 = 0 then x i else x1 i).d * P.load (if l % 2 = 0 then y i else y1 i).d) (fun i =>
      mmla (x i).qs (fun t => (x i).qs (16 + t)) (x1 i).qs (fun t => (x1 i).qs (16 + t)) (y i).qs (y1 i).qs) 1 =
      dotR (32 * (n / 32)) (rowVal 32 (Q80.val P) x) (rowVal 32 (Q80.val P) y1) := by
    rw [fmaLanes_eq, dotR_q80]
    refine Finset.sum_congr rfl fun i hi => ?_
    have hi := Finset.mem_range.mp hi
    have lo : ∀ {b : Q80}, b.Bytes → ∀ t < 16, |b.qs t| ≤ 128 := fun h t ht => h.abs t (by omega)
    have hh : ∀ {b : Q80}, b.Bytes → ∀ t < 16, |(fun t => b.qs (16 + t)) t| ≤ 128 := fun h t ht => h.abs _ (by omega)
    have := mmla_lane (lo (hx i hi)) (hh (hx i hi)) (lo (hx1 i hi)) (hh (hx1 i hi)) (hy i hi).abs (hy1 i hi).abs
      (r := 0) (c := 1) (by omega) (by omega)
    have e1 : mmla (x i).qs (fun t => (x i).qs (16 + t)) (x1 i).qs (fun t => (x1 i).qs (16 + t)) (y i).qs (y1 i).qs 1 =
        ∑ j ∈ Finset.range 32, (x i).qs j * (y1 i).qs j := by
      rw [sum32]; simpa using this
    rw [e1, if_pos (by norm_num), if_neg (by norm_num)]
  unfold dotQ80
  simp only
  obtain ⟨v, hv⟩ : ∃ v, v = fmaLanes (n / 32)
      (fun i l => P.load (if l / 2 = 0 then x i else x1 i).d * P.load (if l % 2 = 0 then y i else y1 i).d) (fun i =>
      mmla (x i).qs (fun t => (x i).qs (16 + t)) (x1 i).qs (fun t => (x1 i).qs (16 + t)) (y i).qs (y1 i).qs) := ⟨_, rfl⟩
  rw [← hv] at key ⊢
  rw [← key]
  simp [mmlaStores, run, Upd.put, Function.update]

theorem mulSum_low (l : Nat) : mulSumI8 (fun _ => -1) (fun _ => -128) l = -512 := by
  have : mulSumI8 (fun _ => -1) (fun _ => -128) l = mulSumI8 (fun _ => -1) (fun _ => -128) 0 := rfl
  rw [this]
  decide

/-- Violation: with AVX2 a code `-128` in `y` against a negative code in `x` enters with the wrong sign: the stored
number is the opposite of the dot product. -/
theorem C131_minus_128_violated (P : Plat) (d s bs : Nat) (x1 y1 : Nat → Q80) :
    dotQ80 .avx2 P 32 s bs (fun _ => ⟨d, fun _ => -1⟩) (fun _ => ⟨d, fun _ => -128⟩) x1 y1 =
      [Upd.put s (-(P.load d * P.load d * 4096))] ∧
    dotR 32 (rowVal 32 (Q80.val P) fun _ => ⟨d, fun _ => -1⟩) (rowVal 32 (Q80.val P) fun _ => ⟨d, fun _ => -128⟩) = P.load d * P.load d * 4096 := by
  refine ⟨?_, ?_⟩
  · unfold dotQ80
    simp only
    rw [hsum8_eq]
    simp only [mulSum_low]
    refine congrArg (fun v : ℝ => [Upd.put s v]) ?_
    rw [show (32 / 32 : Nat) = 1 from rfl, Finset.sum_range_one, Finset.sum_const, Finset.card_range]
    norm_num
  · simp only [dotR, rowVal, Q80.val]
    rw [Finset.sum_const, Finset.card_range]
    norm_num
    ring

/-! ### The hypotheses can be met -/

/-- Rows of 128 elements with codes 7 and -8 against codes 127. -/
example : let x : Nat → Q40 := fun _ => ⟨15360, fun _ => 15⟩
    let y : Nat → Q80 := fun _ => ⟨15360, fun _ => 127⟩
    (∀ i < 128 / 32, (x i).Bytes) ∧ (∀ i < 128 / 32, (y i).Sym) ∧ 128 / 32 % 2 = 0 ∧ (x 0).code 0 = 7 ∧ (x 0).code 20 = -8 := by
  refine ⟨fun i _ j _ => by norm_num, fun i _ j _ => by norm_num, rfl, by decide, by decide⟩

example : let x : Nat → Q80 := fun _ => ⟨15360, fun _ => -128⟩
    let y : Nat → Q80 := fun _ => ⟨15360, fun j => (j : Int) - 16⟩
    (∀ i < 128 / 32, (x i).Bytes) ∧ (∀ i < 128 / 32, (y i).Sym) ∧ ∀ i < 128 / 32, (y i).Bytes := by
  refine ⟨fun i _ j _ => by norm_num, fun i _ j hj => ?_, fun i _ j hj => ?_⟩ <;> dsimp only <;> omega

end Verif.Quant
