import Verif.Quant.DotKLemmas
import Verif.Quant.PropsDot

/-! C131: quantised dot products, `q4_K` and `q6_K`. -/

namespace Verif.Quant

open Verif.Kern (run Upd)

/-- The stored partial sums of a `q8_K` block are the sums of its sixteens, unless the block is zero (the quantiser
leaves them unwritten then). -/
def Q8K.Sums (y : Q8K) : Prop := y.d ≠ 0 → ∀ g < 16, y.bsums g = ∑ t ∈ Finset.range 16, y.qs (16 * g + t)

theorem Q8K.Bytes.abs {b : Q8K} (h : b.Bytes) : ∀ j < 256, |b.qs j| ≤ 128 := fun j hj => by
  have := h j hj; rw [abs_le]; omega

/-! ### The words of scales -/

theorem byte_kmask1 {k : Nat} (hk : k < 4) : byteOf kmask1 k = 63 := by interval_cases k <;> decide
theorem byte_kmask2 {k : Nat} (hk : k < 4) : byteOf kmask2 k = 15 := by interval_cases k <;> decide
theorem byte_kmask3 {k : Nat} (hk : k < 4) : byteOf kmask3 k = 3 := by interval_cases k <;> decide

theorem byte_utmp {sc : Nat → Nat} (h : ∀ j < 12, sc j < 256) {k t : Nat} (hk : k < 3) (ht : t < 4) :
    byteOf (utmp sc k) t = sc (4 * k + t) := byteOf_word (fun t ht => h _ (by omega)) ht

/-- The two top bits, moved above a nibble. -/
theorem byte_high {w t : Nat} (ht : t < 4) : byteOf (((w >>> 6) &&& kmask3) <<< 4) t = 16 * (byteOf w t / 64) := by
  have e : byteOf ((w >>> 6) &&& kmask3) t = byteOf w t / 64 := by
    rw [byteOf_shr_and (by rw [byte_kmask3 ht]; norm_num) (by norm_num), byte_kmask3 ht, and3, shr6]
    have := byteOf_lt w t
    omega
  have hlt := byteOf_lt w t
  rw [byteOf_shl (by rw [e]; norm_num; omega) (by norm_num), e, Nat.shiftLeft_eq, Nat.mul_comm]
  intro i hi
  rcases Nat.eq_zero_or_pos t with rfl | ht0
  · right; omega
  · left
    rw [Nat.testBit_and]
    have : kmask3.testBit (8 * t + i - 4) = false := by
      have h1 : t = 1 ∨ t = 2 ∨ t = 3 := by omega
      have h2 : i = 0 ∨ i = 1 ∨ i = 2 ∨ i = 3 := by omega
      rcases h1 with rfl | rfl | rfl <;> rcases h2 with rfl | rfl | rfl | rfl <;> decide
    rw [this, Bool.and_false]

theorem scaleByte_eq {b : Q4K} (hb : b.Bytes) {g : Nat} (hg : g < 8) : scaleByte b.scales g = b.scale g ∧ b.scale g ≤ 63 := by
  have hs := hb.2
  have e : scaleByte b.scales g = b.scale g := by
    unfold scaleByte scaleWord Q4K.scale
    by_cases h : g < 4
    · rw [if_pos (by omega), if_pos h, byteOf_and, byte_kmask1 (by omega), byte_utmp hs (by omega) (by omega), and63]
      congr 2; omega
    · rw [if_neg (by omega), if_neg h, byteOf_or, byteOf_and, byte_kmask2 (by omega), byte_utmp hs (by omega) (by omega), and15,
        byte_high (by omega), byte_utmp hs (by omega) (by omega)]
      have h16 : b.scales (4 * 2 + g % 4) % 16 < 16 := Nat.mod_lt _ (by norm_num)
      have e2 : 16 * (b.scales (4 * 0 + g % 4) / 64) = (b.scales (4 * 0 + g % 4) / 64) <<< 4 := by
        rw [Nat.shiftLeft_eq]; ring
      rw [e2, or_shl4 _ h16, show 4 * 2 + g % 4 = g + 4 by omega, show 4 * 0 + g % 4 = g - 4 by omega]
  refine ⟨e, ?_⟩
  unfold Q4K.scale
  split
  · omega
  · have := hs (g - 4) (by omega); omega

theorem minByte_eq {b : Q4K} (hb : b.Bytes) {g : Nat} (hg : g < 8) : minByte b.scales g = b.min g ∧ b.min g ≤ 63 := by
  have hs := hb.2
  have e : minByte b.scales g = b.min g := by
    unfold minByte minWord Q4K.min
    by_cases h : g < 4
    · rw [if_pos (by omega), if_pos h, byteOf_and, byte_kmask1 (by omega), byte_utmp hs (by omega) (by omega), and63]
      congr 2; omega
    · rw [if_neg (by omega), if_neg h, byteOf_or, byteOf_shr_and (by rw [byte_kmask2 (by omega)]; norm_num) (by norm_num),
        byte_kmask2 (by omega), byte_utmp hs (by omega) (by omega), and15, shr4, byte_high (by omega), byte_utmp hs (by omega) (by omega)]
      have h8 := hs (4 * 2 + g % 4) (by omega)
      have h16 : b.scales (4 * 2 + g % 4) / 16 % 16 = b.scales (4 * 2 + g % 4) / 16 := by omega
      have e2 : 16 * (b.scales (4 * 1 + g % 4) / 64) = (b.scales (4 * 1 + g % 4) / 64) <<< 4 := by
        rw [Nat.shiftLeft_eq]; ring
      rw [h16, e2, or_shl4 _ (by omega), show 4 * 2 + g % 4 = g + 4 by omega, show 4 * 1 + g % 4 = g by omega]
  refine ⟨e, ?_⟩
  unfold Q4K.min
  split
  · omega
  · have := hs g (by omega); have := hs (g + 4) (by omega); omega

/-! ### What a block is worth -/

/-- Σ over the groups of scale times the integer product of the group. -/
def k4S (x : Q4K) (y : Q8K) : Int :=
  ∑ g ∈ Finset.range 8, (x.scale g : Int) * ∑ t ∈ Finset.range 32, (x.code (32 * g + t) : Int) * y.qs (32 * g + t)

/-- Σ over the groups of minimum times the sum of the group. -/
def k4M (x : Q4K) (y : Q8K) : Int := ∑ g ∈ Finset.range 8, (x.min g : Int) * ∑ t ∈ Finset.range 32, y.qs (32 * g + t)

theorem q4K_block (P : Plat) (x : Q4K) (y : Q8K) :
    ∑ j ∈ Finset.range 256, x.val P j * y.val j =
      y.d * P.load x.d * (k4S x y : ℝ) - y.d * P.load x.dmin * (k4M x y : ℝ) := by
  rw [← sum_group (fun j => x.val P j * y.val j) 8 32]
  unfold k4S k4M
  push_cast
  rw [Finset.mul_sum, Finset.mul_sum, ← Finset.sum_sub_distrib]
  refine Finset.sum_congr rfl fun g _ => ?_
  rw [Finset.mul_sum, Finset.mul_sum, Finset.mul_sum, Finset.mul_sum, ← Finset.sum_sub_distrib]
  refine Finset.sum_congr rfl fun t ht => ?_
  have ht := Finset.mem_range.mp ht
  unfold Q4K.val Q8K.val
  rw [Nat.mul_add_div (by norm_num), Nat.div_eq_of_lt ht, Nat.add_zero]
  ring

theorem code_le {x : Q4K} (hx : x.Bytes) {j : Nat} (hj : j < 256) : x.code j ≤ 15 := by
  unfold Q4K.code
  split
  · omega
  · have := hx.1 (32 * (j / 64) + j % 32) (by omega); omega

/-- The nibbles as the kernels take them. -/
theorem code_at {x : Q4K} {j h t : Nat} (hh : h < 2) (ht : t < 32) :
    (if h = 0 then x.qs (32 * j + t) &&& 0xF else x.qs (32 * j + t) >>> 4) = x.code (64 * j + 32 * h + t) := by
  unfold Q4K.code
  have e1 : (64 * j + 32 * h + t) / 64 = j := by omega
  have e2 : (64 * j + 32 * h + t) % 32 = t := by omega
  rw [e1, e2, and15, shr4]
  have : h = 0 ∨ h = 1 := by omega
  rcases this with rfl | rfl
  · rw [if_pos rfl, if_pos (by omega)]
  · rw [if_neg (by norm_num), if_neg (by omega)]

/-- The integer product of group `2j + h`. -/
def grp4 (x : Q4K) (y : Q8K) (j h : Nat) : Int :=
  ∑ t ∈ Finset.range 32, (x.code (64 * j + 32 * h + t) : Int) * y.qs (64 * j + 32 * h + t)

theorem grp4_abs {x : Q4K} {y : Q8K} (hx : x.Bytes) (hy : y.Bytes) {j h : Nat} (hj : j < 4) (hh : h < 2) : |grp4 x y j h| ≤ 61440 := by
  have := sum_bound (n := 32) (f := fun t => (x.code (64 * j + 32 * h + t) : Int) * y.qs (64 * j + 32 * h + t)) (B := 15 * 128)
    fun t ht => mul_bound (by have := code_le hx (j := 64 * j + 32 * h + t) (by omega); rw [abs_le]; omega) (hy.abs _ (by omega))
  exact this.trans (by norm_num)

theorem k4S_eq (x : Q4K) (y : Q8K) :
    (∑ j ∈ Finset.range 4, grp4 x y j 0 * (x.scale (2 * j + 0) : Int)) + ∑ j ∈ Finset.range 4, grp4 x y j 1 * (x.scale (2 * j + 1) : Int) = k4S x y := by
  have := sum_pairs (fun g => (x.scale g : Int) * ∑ t ∈ Finset.range 32, (x.code (32 * g + t) : Int) * y.qs (32 * g + t)) 4
  unfold k4S
  rw [← this]
  congr 1 <;> refine Finset.sum_congr rfl fun j _ => ?_ <;> rw [mul_comm] <;> unfold grp4 <;> congr 1 <;>
    refine Finset.sum_congr rfl fun t _ => ?_ <;> congr 3 <;> omega

theorem k4GroupDot_eq {x : Q4K} {y : Q8K} (hx : x.Bytes) (hy : y.Bytes) {j h : Nat} (hj : j < 4) (hh : h < 2) :
    k4GroupDot x y j h = grp4 x y j h := by
  have ca : ∀ o, o ≤ 16 → ∀ t < 16, (((if h = 0 then x.qs (32 * j + o + t) &&& 0xF else x.qs (32 * j + o + t) >>> 4 : Nat)) : Int) =
      x.code (64 * j + 32 * h + (o + t)) := fun o ho t ht => by
    rw [Nat.add_assoc, code_at hh (by omega)]
  have ba : ∀ o, o ≤ 16 → ∀ t < 16, |(((if h = 0 then x.qs (32 * j + o + t) &&& 0xF else x.qs (32 * j + o + t) >>> 4 : Nat)) : Int)| ≤ 128 :=
    fun o ho t ht => by
      rw [ca o ho t ht]; have := code_le hx (j := 64 * j + 32 * h + (o + t)) (by omega); rw [abs_le]; omega
  have bb : ∀ o, o ≤ 16 → ∀ t < 16, |y.qs (64 * j + 32 * h + o + t)| ≤ 128 := fun o ho t ht => hy.abs _ (by omega)
  have hsum := vdot2_sum (ba 0 (by omega)) (bb 0 (by omega)) (ba 16 le_rfl) (bb 16 le_rfl)
  have hlane : ∀ l < 4, |vdot (vdot (fun _ => 0) (fun t => (((if h = 0 then x.qs (32 * j + 0 + t) &&& 0xF else x.qs (32 * j + 0 + t) >>> 4 : Nat)) : Int))
      (fun t => y.qs (64 * j + 32 * h + 0 + t))) (fun t => (((if h = 0 then x.qs (32 * j + 16 + t) &&& 0xF else x.qs (32 * j + 16 + t) >>> 4 : Nat)) : Int))
      (fun t => y.qs (64 * j + 32 * h + 16 + t)) l| ≤ 131072 := by
    intro l hl
    have e1 := vdot_eq (acc := fun _ => 0) (C := 0) (by simp) (by norm_num) (ba 0 (by omega)) (bb 0 (by omega)) hl
    have b1 := sum_bound (n := 4) (f := fun t => (((if h = 0 then x.qs (32 * j + 0 + (4 * l + t)) &&& 0xF else x.qs (32 * j + 0 + (4 * l + t)) >>> 4 : Nat)) : Int) *
      y.qs (64 * j + 32 * h + 0 + (4 * l + t))) (B := 128 * 128) fun t ht => mul_bound (ba 0 (by omega) _ (by omega)) (bb 0 (by omega) _ (by omega))
    have b2 := sum_bound (n := 4) (f := fun t => (((if h = 0 then x.qs (32 * j + 16 + (4 * l + t)) &&& 0xF else x.qs (32 * j + 16 + (4 * l + t)) >>> 4 : Nat)) : Int) *
      y.qs (64 * j + 32 * h + 16 + (4 * l + t))) (B := 128 * 128) fun t ht => mul_bound (ba 16 le_rfl _ (by omega)) (bb 16 le_rfl _ (by omega))
    rw [zero_add] at e1
    rw [vdot_eq (C := 65536) (by rw [e1]; exact b1.trans (by norm_num)) (by norm_num) (ba 16 le_rfl) (bb 16 le_rfl) hl, e1]
    exact (abs_add_le _ _).trans ((add_le_add b1 b2).trans (by norm_num))
  unfold k4GroupDot
  simp only
  rw [vaddv32_eq hlane (by norm_num), hsum]
  unfold grp4
  rw [sum32]
  congr 1 <;> refine Finset.sum_congr rfl fun t ht => ?_
  · rw [ca 0 (by omega) t (Finset.mem_range.mp ht)]; simp
  · have := ca 16 le_rfl t (Finset.mem_range.mp ht)
    rw [this, show 64 * j + 32 * h + 16 + t = 64 * j + 32 * h + (16 + t) by omega]

/-- Without dot products the group is summed in sixteen bits. -/
theorem k4GroupMull_eq (x : Q4K) (y : Q8K) {h : Nat} (j : Nat) (hh : h < 2) :
    k4GroupMull x y j h = i16 (grp4 x y j h) := by
  have ca : ∀ o, o ≤ 16 → ∀ t < 16, (((if h = 0 then x.qs (32 * j + o + t) &&& 0xF else x.qs (32 * j + o + t) >>> 4 : Nat)) : Int) =
      x.code (64 * j + 32 * h + (o + t)) := fun o ho t ht => by
    rw [Nat.add_assoc, code_at hh (by omega)]
  unfold k4GroupMull
  simp only
  rw [vaddv16_lanes (g := fun l =>
    ((x.code (64 * j + 32 * h + l) : Int) * y.qs (64 * j + 32 * h + l) + (x.code (64 * j + 32 * h + (8 + l)) : Int) * y.qs (64 * j + 32 * h + (8 + l))) +
    ((x.code (64 * j + 32 * h + (16 + l)) : Int) * y.qs (64 * j + 32 * h + (16 + l)) + (x.code (64 * j + 32 * h + (24 + l)) : Int) * y.qs (64 * j + 32 * h + (24 + l))))]
  · congr 1
    unfold grp4
    simp only [Finset.sum_range_succ, Finset.sum_range_zero]
    norm_num
    ring
  · intro l hl
    unfold vadd16 vmull8
    simp only
    rw [ca 0 (by omega) (0 + l) (by omega), ca 0 (by omega) (8 + l) (by omega), ca 16 le_rfl (0 + l) (by omega), ca 16 le_rfl (8 + l) (by omega)]
    have k1 := i16_dvd ((x.code (64 * j + 32 * h + l) : Int) * y.qs (64 * j + 32 * h + l))
    have k2 := i16_dvd ((x.code (64 * j + 32 * h + (8 + l)) : Int) * y.qs (64 * j + 32 * h + (8 + l)))
    have k3 := i16_dvd ((x.code (64 * j + 32 * h + (16 + l)) : Int) * y.qs (64 * j + 32 * h + (16 + l)))
    have k4 := i16_dvd ((x.code (64 * j + 32 * h + (24 + l)) : Int) * y.qs (64 * j + 32 * h + (24 + l)))
    rw [show 0 + (0 + l) = l by omega, show 0 + (8 + l) = 8 + l by omega, show 16 + (0 + l) = 16 + l by omega, show 16 + (8 + l) = 24 + l by omega,
      show 64 * j + 32 * h + 0 + (0 + l) = 64 * j + 32 * h + l by omega, show 64 * j + 32 * h + 0 + (8 + l) = 64 * j + 32 * h + (8 + l) by omega,
      show 64 * j + 32 * h + 16 + (0 + l) = 64 * j + 32 * h + (16 + l) by omega, show 64 * j + 32 * h + 16 + (8 + l) = 64 * j + 32 * h + (24 + l) by omega]
    obtain ⟨a, ha⟩ : ∃ a, a = i16 ((x.code (64 * j + 32 * h + l) : Int) * y.qs (64 * j + 32 * h + l)) := ⟨_, rfl⟩
    obtain ⟨b, hb⟩ : ∃ b, b = i16 ((x.code (64 * j + 32 * h + (8 + l)) : Int) * y.qs (64 * j + 32 * h + (8 + l))) := ⟨_, rfl⟩
    obtain ⟨c, hc⟩ : ∃ c, c = i16 ((x.code (64 * j + 32 * h + (16 + l)) : Int) * y.qs (64 * j + 32 * h + (16 + l))) := ⟨_, rfl⟩
    obtain ⟨d, hd⟩ : ∃ d, d = i16 ((x.code (64 * j + 32 * h + (24 + l)) : Int) * y.qs (64 * j + 32 * h + (24 + l))) := ⟨_, rfl⟩
    rw [← ha] at k1 ⊢; rw [← hb] at k2 ⊢; rw [← hc] at k3 ⊢; rw [← hd] at k4 ⊢
    have e1 := i16_dvd (a + b)
    have e2 := i16_dvd (c + d)
    have e3 := i16_dvd (i16 (a + b) + i16 (c + d))
    omega

/-! ### The block sums -/

theorem q8sums_eq {y : Q8K} (hy : y.Bytes) (hs : y.Sums) (hd : y.d ≠ 0) {g : Nat} (hg : g < 8) :
    q8sums y.bsums g = ∑ t ∈ Finset.range 32, y.qs (32 * g + t) ∧ |q8sums y.bsums g| ≤ 4096 := by
  have hsum := sum_bound (n := 32) (f := fun t => y.qs (32 * g + t)) (B := 128) fun t ht => hy.abs _ (by omega)
  have e : q8sums y.bsums g = ∑ t ∈ Finset.range 32, y.qs (32 * g + t) := by
    unfold q8sums
    rw [hs hd _ (by omega), hs hd _ (by omega)]
    have : (∑ t ∈ Finset.range 16, y.qs (16 * (2 * g) + t)) + ∑ t ∈ Finset.range 16, y.qs (16 * (2 * g + 1) + t) =
        ∑ t ∈ Finset.range 32, y.qs (32 * g + t) := by
      rw [sum32]
      congr 1 <;> refine Finset.sum_congr rfl fun t _ => ?_ <;> congr 1 <;> omega
    rw [this]
    rw [abs_le] at hsum
    push_cast at hsum
    exact i16_eq (by omega) (by omega)
  exact ⟨e, by rw [e]; exact hsum.trans (by norm_num)⟩

theorem min_abs {x : Q4K} (hx : x.Bytes) {g : Nat} (hg : g < 8) : |(x.min g : Int)| ≤ 63 := by
  have := (minByte_eq hx hg).2; rw [abs_le]; omega

theorem scale_abs {x : Q4K} (hx : x.Bytes) {g : Nat} (hg : g < 8) : |(x.scale g : Int)| ≤ 63 := by
  have := (scaleByte_eq hx hg).2; rw [abs_le]; omega

theorem k4MinNeon_eq {x : Q4K} {y : Q8K} (hx : x.Bytes) (hy : y.Bytes) (hs : y.Sums) (hd : y.d ≠ 0) : k4MinNeon x y = k4M x y := by
  have term : ∀ g < 8, i32 (q8sums y.bsums g * (minByte x.scales g : Int)) = (x.min g : Int) * ∑ t ∈ Finset.range 32, y.qs (32 * g + t) ∧
      |i32 (q8sums y.bsums g * (minByte x.scales g : Int))| ≤ 4096 * 63 := by
    intro g hg
    obtain ⟨e, hb⟩ := q8sums_eq hy hs hd hg
    have p := prod_bd hb (min_abs hx hg)
    have e2 : i32 (q8sums y.bsums g * (minByte x.scales g : Int)) = q8sums y.bsums g * (x.min g : Int) := by
      rw [(minByte_eq hx hg).1]; exact i32_eq (by omega) (by omega)
    rw [e2]
    exact ⟨by rw [e, mul_comm], mul_bound hb (min_abs hx hg)⟩
  have b1 : ∀ l < 4, |(fun l => i32 (q8sums y.bsums l * (minByte x.scales l : Int))) l| ≤ 1000000000 := fun l hl =>
    (term l (by omega)).2.trans (by norm_num)
  have b2 : ∀ l < 4, |(fun l => i32 (q8sums y.bsums (4 + l) * (minByte x.scales (4 + l) : Int))) l| ≤ 1000000000 := fun l hl =>
    (term (4 + l) (by omega)).2.trans (by norm_num)
  unfold k4MinNeon
  rw [vaddv32_eq (B := 600000) ?_ (by norm_num), vadd32_sum b1 b2, Finset.sum_congr rfl fun l hl => (term l (by have := Finset.mem_range.mp hl; omega)).1,
    Finset.sum_congr rfl fun l hl => (term (4 + l) (by have := Finset.mem_range.mp hl; omega)).1]
  · exact (sum_split (fun g => (x.min g : Int) * ∑ t ∈ Finset.range 32, y.qs (32 * g + t)) 4 4).symm
  · intro l hl
    have c1 := (term l (by omega)).2
    have c2 := (term (4 + l) (by omega)).2
    unfold vadd32
    simp only
    rw [abs_le] at c1 c2
    rw [i32_eq (by omega) (by omega), abs_le]
    constructor <;> omega

theorem k4Acc_eq {x : Q4K} {f g : Nat → Int} {h : Nat} (hx : x.Bytes) (hh : h < 2) (hf : ∀ j < 4, f j = g j ∧ |g j| ≤ 61440) :
    k4Acc f (fun j => scaleByte x.scales (2 * j + h)) = ∑ j ∈ Finset.range 4, g j * (x.scale (2 * j + h) : Int) ∧
      |∑ j ∈ Finset.range 4, g j * (x.scale (2 * j + h) : Int)| ≤ 4 * (61440 * 63) := by
  have bd : ∀ j < 4, |g j * (x.scale (2 * j + h) : Int)| ≤ 61440 * 63 := fun j hj => mul_bound (hf j hj).2 (scale_abs hx (by omega))
  have e : ∀ j < 4, i32 (f j * (scaleByte x.scales (2 * j + h) : Int)) = g j * (x.scale (2 * j + h) : Int) := fun j hj => by
    have := bd j hj
    rw [abs_le] at this
    rw [(hf j hj).1, (scaleByte_eq hx (by omega)).1]
    exact i32_eq (by omega) (by omega)
  have sb := sum_bound bd
  refine ⟨?_, by exact_mod_cast sb⟩
  unfold k4Acc
  rw [fold_i32 (B := 61440 * 63) 4 0 (fun j hj => by rw [e j hj]; exact bd j hj) (by norm_num), zero_add]
  exact Finset.sum_congr rfl fun j hj => e j (Finset.mem_range.mp hj)

/-- The blocks of a row, added up in any way that is right block by block. -/
theorem rowK {α : Type} (val : α → Nat → ℝ) (nb : Nat) (x : Nat → α) (y : Nat → Q8K) :
    dotR (256 * nb) (rowVal 256 val x) (rowVal 256 Q8K.val y) =
      ∑ i ∈ Finset.range nb, ∑ j ∈ Finset.range 256, val (x i) j * (y i).val j := dotR_rows 256 nb (by norm_num) ..

theorem neonLoop_eq {P : Plat} {grp : Q4K → Q8K → Nat → Nat → Int} {nb : Nat} {x : Nat → Q4K} {y : Nat → Q8K}
    (hx : ∀ i < nb, (x i).Bytes) (hy : ∀ i < nb, (y i).Bytes) (hs : ∀ i < nb, (y i).Sums)
    (hg : ∀ i < nb, (y i).d ≠ 0 → ∀ j < 4, ∀ h < 2, grp (x i) (y i) j h = grp4 (x i) (y i) j h) :
    dotQ4KNeon P grp nb x y = dotR (256 * nb) (rowVal 256 (Q4K.val P) x) (rowVal 256 Q8K.val y) := by
  rw [rowK]
  unfold dotQ4KNeon
  induction nb with
  | zero => simp
  | succ n ih =>
    rw [List.range_succ, List.foldl_append, Finset.sum_range_succ,
      ih (fun i hi => hx i (by omega)) (fun i hi => hy i (by omega)) (fun i hi => hs i (by omega)) (fun i hi => hg i (by omega))]
    simp only [List.foldl_cons, List.foldl_nil]
    rw [q4K_block]
    by_cases hd : (y n).d = 0
    · rw [hd]; ring
    · have h0 := hx n (by omega); have h1 := hy n (by omega); have h2 := hs n (by omega); have h3 := hg n (by omega) hd
      rw [k4MinNeon_eq h0 h1 h2 hd]
      obtain ⟨e1, b1⟩ := k4Acc_eq (f := fun j => grp (x n) (y n) j 0) (g := fun j => grp4 (x n) (y n) j 0) (h := 0) h0 (by norm_num)
        fun j hj => ⟨h3 j hj 0 (by norm_num), grp4_abs h0 h1 hj (by norm_num)⟩
      obtain ⟨e2, b2⟩ := k4Acc_eq (f := fun j => grp (x n) (y n) j 1) (g := fun j => grp4 (x n) (y n) j 1) (h := 1) h0 (by norm_num)
        fun j hj => ⟨h3 j hj 1 (by norm_num), grp4_abs h0 h1 hj (by norm_num)⟩
      rw [e1, e2]
      rw [abs_le] at b1 b2
      rw [i32_eq (by omega) (by omega), k4S_eq]
      ring

/-! ### AVX2 and scalar -/

theorem scaleLanes_eq {x : Q4K} (hx : x.Bytes) {i l : Nat} (hi : i < 8) (hl : l < 16) : scaleLanes x.scales i l = x.scale i := by
  have hk : ∀ i < 8, ∀ l < 16, kShuffle.getD (32 * i + 2 * l) 0 = 2 * i ∧ kShuffle.getD (32 * i + 2 * l + 1) 0 = 2 * i + 1 := by
    decide +kernel
  unfold scaleLanes
  simp only
  rw [(hk i hi l hl).1, (hk i hi l hl).2, if_pos (by omega), if_neg (by omega), show 2 * i / 2 = i by omega, (scaleByte_eq hx hi).1]
  simp

/-- One `p16` of AVX2: scale times the group. -/
theorem k4Term_sum {x : Q4K} {y : Q8K} (hx : x.Bytes) (hy : y.Bytes) {j h : Nat} (hj : j < 4) (hh : h < 2) {q : Nat → Nat}
    (hq : ∀ t < 32, q t = x.code (64 * j + 32 * h + t)) :
    (∑ l ∈ Finset.range 8, madd16 (scaleLanes x.scales (2 * j + h)) (maddubs q (fun t => y.qs (64 * j + 32 * h + t))) l =
      grp4 x y j h * (x.scale (2 * j + h) : Int)) ∧
    ∀ l < 8, |madd16 (scaleLanes x.scales (2 * j + h)) (maddubs q (fun t => y.qs (64 * j + 32 * h + t))) l| ≤ 10000000 := by
  have q15 : ∀ t < 32, q t ≤ 15 := fun t ht => by rw [hq t ht]; exact code_le hx (by omega)
  have m : ∀ l < 16, maddubs q (fun t => y.qs (64 * j + 32 * h + t)) l =
      (q (2 * l) : Int) * y.qs (64 * j + 32 * h + 2 * l) + (q (2 * l + 1) : Int) * y.qs (64 * j + 32 * h + (2 * l + 1)) := fun l hl =>
    maddubs_eq (by have := q15 (2 * l) (by omega); omega) (by have := q15 (2 * l + 1) (by omega); omega) (hy.abs _ (by omega)) (hy.abs _ (by omega))
  obtain ⟨e, b⟩ := madd16_sum (s := scaleLanes x.scales (2 * j + h)) (p := maddubs q (fun t => y.qs (64 * j + 32 * h + t)))
    (fun l hl => by rw [scaleLanes_eq hx (by omega) hl]; exact (scale_abs hx (by omega)).trans (by norm_num))
    (fun l hl => by
      have := maddubs_abs (a := q) (b := fun t => y.qs (64 * j + 32 * h + t)) (l := l) (A := 15)
        (by have := q15 (2 * l) (by omega); omega) (by have := q15 (2 * l + 1) (by omega); omega) (by norm_num) (hy.abs _ (by omega)) (hy.abs _ (by omega))
      exact this.trans (by norm_num))
  refine ⟨?_, b⟩
  rw [e, Finset.sum_congr rfl fun l hl => by rw [scaleLanes_eq hx (by omega) (Finset.mem_range.mp hl), m l (Finset.mem_range.mp hl)],
    ← Finset.mul_sum, mul_comm]
  congr 1
  unfold grp4
  rw [← sum_group (fun t => (x.code (64 * j + 32 * h + t) : Int) * y.qs (64 * j + 32 * h + t)) 16 2]
  refine Finset.sum_congr rfl fun l hl => ?_
  have hl := Finset.mem_range.mp hl
  rw [hq _ (by omega), hq _ (by omega)]
  simp [Finset.sum_range_succ]

/-- Adding lane vectors in a loop. -/
theorem fold_vadd32 {T : Nat → Nat → Int} {B : Int} {n : Nat} (hT : ∀ j < n, ∀ l < 8, |T j l| ≤ B) (hB : n * B ≤ 1000000000) :
    ∑ l ∈ Finset.range 8, (List.range n).foldl (fun s j => vadd32 s (T j)) (fun _ => 0) l = ∑ j ∈ Finset.range n, ∑ l ∈ Finset.range 8, T j l := by
  have : ∀ l < 8, (List.range n).foldl (fun s j => vadd32 s (T j)) (fun _ => 0) l = ∑ j ∈ Finset.range n, T j l := by
    intro l hl
    have e := fold_lane (f := fun j l v => i32 (v + T j l)) (List.range n) (fun _ => 0) l
    have e2 := fold_i32 (f := fun j => T j l) n 0 (fun j hj => hT j hj l hl) (by simp; omega)
    rw [zero_add] at e2
    exact e.trans e2
  rw [Finset.sum_congr rfl fun l hl => this l (Finset.mem_range.mp hl), Finset.sum_comm]

theorem k4SumAvx_eq {x : Q4K} {y : Q8K} (hx : x.Bytes) (hy : y.Bytes) : ∑ l ∈ Finset.range 8, k4SumAvx x y l = k4S x y := by
  have hl : ∀ j < 4, ∀ t < 32, x.qs (32 * j + t) &&& 0xF = x.code (64 * j + 32 * 0 + t) := fun j hj t ht => by
    have := code_at (x := x) (j := j) (h := 0) (by norm_num) ht
    rwa [if_pos rfl] at this
  have hh : ∀ j < 4, ∀ t < 32, srli16 4 (fun t => x.qs (32 * j + t)) t &&& 0xF = x.code (64 * j + 32 * 1 + t) := fun j hj t ht => by
    have := code_at (x := x) (j := j) (h := 1) (by norm_num) ht
    rw [if_neg (by norm_num), shr4] at this
    have e := srli16_and (k := 4) (m := 4) (v := fun t => x.qs (32 * j + t)) (t := t) (fun u hu => hx.1 _ (by omega)) (by norm_num)
    norm_num at e
    have h8 := hx.1 (32 * j + t) (by omega)
    rw [and15, e, ← this]
    omega
  have tl := fun j (hj : j < 4) => k4Term_sum hx hy hj (h := 0) (by norm_num) (q := fun t => x.qs (32 * j + t) &&& 0xF) (hl j hj)
  have th := fun j (hj : j < 4) => k4Term_sum hx hy hj (h := 1) (by norm_num)
    (q := fun t => srli16 4 (fun t => x.qs (32 * j + t)) t &&& 0xF) (hh j hj)
  simp only [Nat.mul_zero, Nat.add_zero, Nat.mul_one] at tl th
  unfold k4SumAvx
  simp only [Nat.add_zero]
  rw [fold_vadd32 (B := 20000000) (n := 4) ?_ (by norm_num)]
  · rw [← k4S_eq, ← Finset.sum_add_distrib]
    simp only [Nat.add_zero]
    refine Finset.sum_congr rfl fun j hj => ?_
    have hj := Finset.mem_range.mp hj
    rw [vadd32_sum (fun l hl => ((tl j hj).2 l hl).trans (by norm_num)) (fun l hl => ((th j hj).2 l hl).trans (by norm_num)),
      (tl j hj).1, (th j hj).1]
  · intro j hj l hl
    have c1 := (tl j hj).2 l hl
    have c2 := (th j hj).2 l hl
    rw [abs_le] at c1 c2
    unfold vadd32
    rw [i32_eq (by omega) (by omega), abs_le]
    constructor <;> omega

theorem k4MinAvx_eq {x : Q4K} {y : Q8K} (hx : x.Bytes) (hy : y.Bytes) (hs : y.Sums) (hd : y.d ≠ 0) :
    ∑ l ∈ Finset.range 4, madd16 (fun l => (minByte x.scales l : Int)) (q8sums y.bsums) l = k4M x y := by
  have lane : ∀ l < 4, madd16 (fun l => (minByte x.scales l : Int)) (q8sums y.bsums) l =
      (x.min (2 * l) : Int) * (∑ t ∈ Finset.range 32, y.qs (32 * (2 * l) + t)) +
      (x.min (2 * l + 1) : Int) * ∑ t ∈ Finset.range 32, y.qs (32 * (2 * l + 1) + t) := by
    intro l hl
    obtain ⟨e1, b1⟩ := q8sums_eq hy hs hd (g := 2 * l) (by omega)
    obtain ⟨e2, b2⟩ := q8sums_eq hy hs hd (g := 2 * l + 1) (by omega)
    have p1 := prod_bd (min_abs hx (g := 2 * l) (by omega)) b1
    have p2 := prod_bd (min_abs hx (g := 2 * l + 1) (by omega)) b2
    unfold madd16
    simp only
    rw [(minByte_eq hx (by omega)).1, (minByte_eq hx (by omega)).1, i32_eq (by omega) (by omega), e1, e2]
  rw [Finset.sum_congr rfl fun l hl => lane l (Finset.mem_range.mp hl), Finset.sum_add_distrib]
  exact sum_pairs (fun g => (x.min g : Int) * ∑ t ∈ Finset.range 32, y.qs (32 * g + t)) 4

theorem dotQ4KAvx_eq {P : Plat} {nb : Nat} {x : Nat → Q4K} {y : Nat → Q8K}
    (hx : ∀ i < nb, (x i).Bytes) (hy : ∀ i < nb, (y i).Bytes) (hs : ∀ i < nb, (y i).Sums) :
    dotQ4KAvx P nb x y = dotR (256 * nb) (rowVal 256 (Q4K.val P) x) (rowVal 256 Q8K.val y) := by
  rw [rowK]
  unfold dotQ4KAvx
  simp only
  rw [hsum8_eq]
  have e : ∀ (a : Nat → ℝ), (a 0 + a 2) + (a 1 + a 3) = vaddvF a := fun a => by unfold vaddvF; ring
  rw [e, vaddvF_eq, ← Finset.sum_add_distrib]
  refine Finset.sum_congr rfl fun i hi => ?_
  have hi := Finset.mem_range.mp hi
  rw [q4K_block]
  by_cases hd : (y i).d = 0
  · rw [hd]; ring
  · rw [k4SumAvx_eq (hx i hi) (hy i hi), k4MinAvx_eq (hx i hi) (hy i hi) (hs i hi) hd]; ring

theorem k4Codes_eq {x : Q4K} {t : Nat} : k4Codes x.qs t = x.code t := by
  unfold k4Codes Q4K.code
  simp only
  rw [and15, shr4]
  congr 1
  by_cases h : t % 64 < 32
  · rw [if_pos h, if_pos h, show t % 64 = t % 32 by omega]
  · rw [if_neg h, if_neg h, show t % 64 - 32 = t % 32 by omega]

theorem sumi_eq {x : Q4K} {y : Q8K} (hx : x.Bytes) (hy : y.Bytes) (hs : y.Sums) (hd : y.d ≠ 0) :
    (List.range 16).foldl (fun s j => i32 (s + y.bsums j * (minByte x.scales (j / 2) : Int))) 0 = k4M x y := by
  have b : ∀ j < 16, |y.bsums j| ≤ 2048 := fun j hj => by
    rw [hs hd j hj]
    exact (sum_bound (n := 16) (f := fun t => y.qs (16 * j + t)) (B := 128) fun t ht => hy.abs _ (by omega)).trans (by norm_num)
  rw [fold_i32 (f := fun j => y.bsums j * (minByte x.scales (j / 2) : Int)) (B := 2048 * 63) 16 0 (fun j hj => by
    rw [(minByte_eq hx (by omega)).1]; exact mul_bound (b j hj) (min_abs hx (by omega))) (by norm_num), zero_add]
  rw [← sum_pairs (fun j => y.bsums j * (minByte x.scales (j / 2) : Int)) 8, ← Finset.sum_add_distrib]
  unfold k4M
  refine Finset.sum_congr rfl fun g hg => ?_
  have hg := Finset.mem_range.mp hg
  rw [show 2 * g / 2 = g by omega, show (2 * g + 1) / 2 = g by omega, (minByte_eq hx hg).1, ← add_mul, mul_comm,
    hs hd _ (by omega), hs hd _ (by omega), sum32]
  congr 2 <;> refine Finset.sum_congr rfl fun t _ => ?_ <;> congr 1 <;> omega

theorem dotQ4KScalar_eq {P : Plat} {nb : Nat} {x : Nat → Q4K} {y : Nat → Q8K}
    (hx : ∀ i < nb, (x i).Bytes) (hy : ∀ i < nb, (y i).Bytes) (hs : ∀ i < nb, (y i).Sums) :
    dotQ4KScalar P nb x y = dotR (256 * nb) (rowVal 256 (Q4K.val P) x) (rowVal 256 Q8K.val y) := by
  rw [rowK]
  have pre : ∀ (r : ℝ × (Nat → ℝ)), (List.range 8).foldl (fun s l => s + r.2 l) r.1 = r.1 + ∑ l ∈ Finset.range 8, r.2 l := by
    intro r
    simp [List.range, List.range.loop, Finset.sum_range_succ]; ring
  unfold dotQ4KScalar
  simp only
  rw [pre]
  induction nb with
  | zero => simp
  | succ n ih =>
    rw [Finset.sum_range_succ _ n, ← ih (fun i hi => hx i (by omega)) (fun i hi => hy i (by omega)) (fun i hi => hs i (by omega)),
      List.range_succ (n := n), List.foldl_append]
    obtain ⟨r, hr⟩ : ∃ r, r = (List.range n).foldl (fun (st : ℝ × (Nat → ℝ)) i =>
      (st.1 - P.load (x i).dmin * (y i).d * (((List.range 16).foldl (fun s j => i32 (s + (y i).bsums j * minByte (x i).scales (j / 2))) 0 : Int) : ℝ),
        fun l => st.2 l + P.load (x i).d * (y i).d * (aux32 32 (fun g => scaleByte (x i).scales g) (y i).qs (k4Codes (x i).qs) l : ℝ)))
      (0, fun _ => 0) := ⟨_, rfl⟩
    rw [← hr]
    simp only [List.foldl_cons, List.foldl_nil]
    have h0 := hx n (by omega); have h1 := hy n (by omega); have h2 := hs n (by omega)
    rw [q4K_block, Finset.sum_add_distrib, ← Finset.mul_sum, ← Int.cast_sum,
      aux32_sum (Or.inr rfl) (fun g hg => by rw [(scaleByte_eq h0 hg).1]; exact (scale_abs h0 hg).trans (by norm_num)) h1.abs
        (fun t ht => by rw [k4Codes_eq]; have := code_le h0 ht; rw [abs_le]; omega)]
    have eS : ∑ g ∈ Finset.range (256 / 32), (scaleByte (x n).scales g : Int) * ∑ t ∈ Finset.range 32, k4Codes (x n).qs (32 * g + t) * (y n).qs (32 * g + t) =
        k4S (x n) (y n) := by
      unfold k4S
      refine Finset.sum_congr rfl fun g hg => ?_
      rw [(scaleByte_eq h0 (Finset.mem_range.mp hg)).1]
      congr 1
      exact Finset.sum_congr rfl fun t _ => by rw [k4Codes_eq]
    rw [eS]
    by_cases hd : (y n).d = 0
    · rw [hd]; ring
    · rw [sumi_eq h0 h1 h2 hd]; ring

/-- `q4_K · q8_K`: with AVX2, in the scalar build, with NEON dot products, and with plain NEON when each group of 32
has a product that fits in sixteen bits, the call writes exactly `*s`, the dot product of the two dequantised rows.
The row `y` is any row written by `quantize_row_q8_K` (C130). -/
theorem C131_dot_q4_K_partial {tg : SimdK} (P : Plat) (n s : Nat) {x : Nat → Q4K} {y : Nat → Q8K}
    (hx : ∀ i < n / 256, (x i).Bytes) (hy : ∀ i < n / 256, (y i).Bytes) (hs : ∀ i < n / 256, (y i).Sums)
    (hp : tg = .neonPlain → ∀ i < n / 256, ∀ g < 8,
      -32768 ≤ ∑ t ∈ Finset.range 32, ((x i).code (32 * g + t) : Int) * (y i).qs (32 * g + t) ∧
      ∑ t ∈ Finset.range 32, ((x i).code (32 * g + t) : Int) * (y i).qs (32 * g + t) ≤ 32767) :
    dotQ4K tg P n s x y = [Upd.put s (dotR (256 * (n / 256)) (rowVal 256 (Q4K.val P) x) (rowVal 256 Q8K.val y))] := by
  cases tg with
  | neonDotprod =>
    exact congrArg (fun v => [Upd.put s v]) (neonLoop_eq hx hy hs fun i hi _ j hj h hh => k4GroupDot_eq (hx i hi) (hy i hi) hj hh)
  | neonPlain =>
    refine congrArg (fun v => [Upd.put s v]) (neonLoop_eq hx hy hs fun i hi _ j hj h hh => ?_)
    rw [k4GroupMull_eq _ _ _ hh]
    have := hp rfl i hi (2 * j + h) (by omega)
    have e : grp4 (x i) (y i) j h = ∑ t ∈ Finset.range 32, ((x i).code (32 * (2 * j + h) + t) : Int) * (y i).qs (32 * (2 * j + h) + t) := by
      unfold grp4
      rw [show 64 * j + 32 * h = 32 * (2 * j + h) by ring]
    rw [e]
    exact i16_eq this.1 this.2
  | avx2 => exact congrArg (fun v => [Upd.put s v]) (dotQ4KAvx_eq hx hy hs)
  | scalar => exact congrArg (fun v => [Upd.put s v]) (dotQ4KScalar_eq hx hy hs)

end Verif.Quant
