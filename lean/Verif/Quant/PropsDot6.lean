import Verif.Quant.PropsDotK

/-! C131: the `q6_K` dot product, and the sixteen-bit overflow. -/

namespace Verif.Quant

open Verif.Kern (run Upd)

/-- Σ over the sixteens of scale times the integer product. -/
def k6S (x : Q6K) (y : Q8K) : Int :=
  ∑ g ∈ Finset.range 16, x.scales g * ∑ t ∈ Finset.range 16, x.code (16 * g + t) * y.qs (16 * g + t)

theorem q6K_block (P : Plat) (x : Q6K) (y : Q8K) :
    ∑ j ∈ Finset.range 256, x.val P j * y.val j = P.load x.d * y.d * (k6S x y : ℝ) := by
  rw [← sum_group (fun j => x.val P j * y.val j) 16 16]
  unfold k6S
  push_cast
  rw [Finset.mul_sum]
  refine Finset.sum_congr rfl fun g _ => ?_
  rw [Finset.mul_sum, Finset.mul_sum]
  refine Finset.sum_congr rfl fun t ht => ?_
  have ht := Finset.mem_range.mp ht
  unfold Q6K.val Q8K.val
  rw [Nat.mul_add_div (by norm_num), Nat.div_eq_of_lt ht, Nat.add_zero]
  ring

theorem code6_bd {x : Q6K} (hx : x.Bytes) {j : Nat} (hj : j < 256) : -32 ≤ x.code j ∧ x.code j ≤ 31 := by
  unfold Q6K.code
  simp only
  have h2 : x.qh (32 * (j / 128) + j % 32) / 4 ^ (j % 128 / 32) % 4 < 4 := Nat.mod_lt _ (by norm_num)
  have h1 := hx.1 (64 * (j / 128) + 32 * (j % 128 / 32 % 2) + j % 32) (by omega)
  split <;> omega

theorem code6_abs {x : Q6K} (hx : x.Bytes) {j : Nat} (hj : j < 256) : |x.code j| ≤ 32 := by
  have := code6_bd hx hj; rw [abs_le]; omega

theorem scale6_abs {x : Q6K} (hx : x.Bytes) {g : Nat} (hg : g < 16) : |x.scales g| ≤ 128 := by
  have := hx.2.2 g hg; rw [abs_le]; omega

/-- The unsigned code at quarter `c` of half `j`. -/
def code6u (x : Q6K) (p : Nat) : Nat :=
  (if p % 128 / 32 < 2 then x.ql (64 * (p / 128) + 32 * (p % 128 / 32 % 2) + p % 32) % 16
    else x.ql (64 * (p / 128) + 32 * (p % 128 / 32 % 2) + p % 32) / 16) + 16 * (x.qh (32 * (p / 128) + p % 32) / 4 ^ (p % 128 / 32) % 4)

theorem code6u_eq (x : Q6K) (p : Nat) : (code6u x p : Int) = x.code p + 32 := by
  unfold code6u Q6K.code; simp only; push_cast; ring

theorem code6u_le {x : Q6K} (hx : x.Bytes) {p : Nat} (hp : p < 256) : code6u x p ≤ 63 := by
  have := code6_bd hx hp; have := code6u_eq x p; omega

theorem shr2c (a c : Nat) : a >>> (2 * c) = a / 4 ^ c := by
  rw [Nat.shiftRight_eq_div_pow, Nat.pow_mul]

theorem k6Bytes_eq {x : Q6K} (hx : x.Bytes) {j c v t : Nat} (hj : j < 2) (hc : c < 4) (hv : v < 2) (ht : t < 16) :
    k6Bytes x j c v t = (code6u x (16 * (8 * j + 2 * c + v) + t) : Int) := by
  unfold k6Bytes code6u
  simp only
  have e1 : (16 * (8 * j + 2 * c + v) + t) / 128 = j := by omega
  have e2 : (16 * (8 * j + 2 * c + v) + t) % 128 / 32 = c := by omega
  have e3 : (16 * (8 * j + 2 * c + v) + t) % 32 = 16 * v + t := by omega
  rw [e1, e2, e3, shr2c, and3, and15, shr4, Nat.add_assoc (64 * j + 32 * (c % 2)), Nat.add_assoc (32 * j)]
  have h1 := hx.1 (64 * j + 32 * (c % 2) + (16 * v + t)) (by omega)
  congr 1
  by_cases h : c < 2
  · rw [if_pos h, or_shl4 _ (by omega)]
  · rw [if_neg h, or_shl4 _ (by omega)]

/-- The integer product of sixteen with the unsigned codes. -/
theorem unsigned_sum {x : Q6K} {y : Q8K} {g : Nat} :
    ∑ t ∈ Finset.range 16, (code6u x (16 * g + t) : Int) * y.qs (16 * g + t) =
      (∑ t ∈ Finset.range 16, x.code (16 * g + t) * y.qs (16 * g + t)) + 32 * ∑ t ∈ Finset.range 16, y.qs (16 * g + t) := by
  rw [Finset.mul_sum, ← Finset.sum_add_distrib]
  refine Finset.sum_congr rfl fun t _ => ?_
  rw [code6u_eq]; ring

theorem unsigned_abs {x : Q6K} {y : Q8K} (hx : x.Bytes) (hy : y.Bytes) {g : Nat} (hg : g < 16) :
    |∑ t ∈ Finset.range 16, (code6u x (16 * g + t) : Int) * y.qs (16 * g + t)| ≤ 129024 := by
  have := sum_bound (n := 16) (f := fun t => (code6u x (16 * g + t) : Int) * y.qs (16 * g + t)) (B := 63 * 128)
    fun t ht => mul_bound (by have := code6u_le hx (p := 16 * g + t) (by omega); rw [abs_le]; omega) (hy.abs _ (by omega))
  exact this.trans (by norm_num)

theorem k6GroupDot_eq {a b : Nat → Int} (ha : ∀ t < 16, |a t| ≤ 128) (hb : ∀ t < 16, |b t| ≤ 128) :
    k6GroupDot a b = ∑ t ∈ Finset.range 16, a t * b t := by
  unfold k6GroupDot
  rw [vaddv32_eq (B := 65536) ?_ (by norm_num), vdot_sum ha hb]
  intro l hl
  rw [vdot_eq (C := 0) (by simp) (by norm_num) ha hb hl, zero_add]
  exact (sum_bound (n := 4) (f := fun t => a (4 * l + t) * b (4 * l + t)) (B := 128 * 128)
    fun t ht => mul_bound (ha _ (by omega)) (hb _ (by omega))).trans (by norm_num)

theorem k6GroupMull_eq (a b : Nat → Int) : k6GroupMull a b = i16 (∑ t ∈ Finset.range 16, a t * b t) := by
  unfold k6GroupMull
  rw [vaddv16_lanes (g := fun l => a l * b l + a (8 + l) * b (8 + l))]
  · congr 1
    rw [Finset.sum_add_distrib]
    exact (sum_split (fun t => a t * b t) 8 8).symm
  · intro l _
    unfold vadd16 vmull8
    rw [Nat.zero_add]
    have k1 := i16_dvd (a l * b l)
    have k2 := i16_dvd (a (8 + l) * b (8 + l))
    obtain ⟨u, hu⟩ : ∃ u, u = i16 (a l * b l) := ⟨_, rfl⟩
    obtain ⟨v, hv⟩ : ∃ v, v = i16 (a (8 + l) * b (8 + l)) := ⟨_, rfl⟩
    rw [← hu] at k1 ⊢; rw [← hv] at k2 ⊢
    have k3 := i16_dvd (u + v)
    omega

theorem bsum_abs {y : Q8K} (hy : y.Bytes) (hs : y.Sums) (hd : y.d ≠ 0) {g : Nat} (hg : g < 16) : |y.bsums g| ≤ 2048 := by
  rw [hs hd g hg]
  exact (sum_bound (n := 16) (f := fun t => y.qs (16 * g + t)) (B := 128) fun t ht => hy.abs _ (by omega)).trans (by norm_num)

theorem k6Mins_eq {x : Q6K} {y : Q8K} (hx : x.Bytes) (hy : y.Bytes) (hs : y.Sums) (hd : y.d ≠ 0) :
    k6Mins x y = ∑ g ∈ Finset.range 16, x.scales g * ∑ t ∈ Finset.range 16, y.qs (16 * g + t) := by
  have term : ∀ g < 16, i32 (y.bsums g * x.scales g) = y.bsums g * x.scales g ∧ |y.bsums g * x.scales g| ≤ 262144 := fun g hg => by
    have := mul_bound (bsum_abs hy hs hd hg) (scale6_abs hx hg)
    refine ⟨?_, this.trans (by norm_num)⟩
    rw [abs_le] at this
    exact i32_eq (by omega) (by omega)
  have lane : ∀ l < 4, vadd32 (vadd32 (fun l => i32 (y.bsums (0 + l) * x.scales (0 + l))) (fun l => i32 (y.bsums (4 + l) * x.scales (4 + l))))
      (vadd32 (fun l => i32 (y.bsums (8 + l) * x.scales (8 + l))) (fun l => i32 (y.bsums (12 + l) * x.scales (12 + l)))) l =
      (y.bsums (0 + l) * x.scales (0 + l) + y.bsums (4 + l) * x.scales (4 + l)) +
        (y.bsums (8 + l) * x.scales (8 + l) + y.bsums (12 + l) * x.scales (12 + l)) ∧
      |(y.bsums (0 + l) * x.scales (0 + l) + y.bsums (4 + l) * x.scales (4 + l)) +
        (y.bsums (8 + l) * x.scales (8 + l) + y.bsums (12 + l) * x.scales (12 + l))| ≤ 2000000 := by
    intro l hl
    obtain ⟨e0, b0⟩ := term (0 + l) (by omega)
    obtain ⟨e1, b1⟩ := term (4 + l) (by omega)
    obtain ⟨e2, b2⟩ := term (8 + l) (by omega)
    obtain ⟨e3, b3⟩ := term (12 + l) (by omega)
    unfold vadd32
    simp only
    rw [e0, e1, e2, e3]
    rw [abs_le] at b0 b1 b2 b3
    rw [i32_eq (n := y.bsums (0 + l) * x.scales (0 + l) + _) (by omega) (by omega), i32_eq (n := y.bsums (8 + l) * x.scales (8 + l) + _) (by omega) (by omega),
      i32_eq (by omega) (by omega)]
    refine ⟨rfl, ?_⟩
    rw [abs_le]; constructor <;> omega
  unfold k6Mins
  simp only
  rw [vaddv32_eq (B := 2000000) (fun l hl => by rw [(lane l hl).1]; exact (lane l hl).2) (by norm_num),
    Finset.sum_congr rfl fun l hl => (lane l (Finset.mem_range.mp hl)).1]
  have : ∀ g ∈ Finset.range 16, x.scales g * ∑ t ∈ Finset.range 16, y.qs (16 * g + t) = y.bsums g * x.scales g := fun g hg => by
    rw [hs hd g (Finset.mem_range.mp hg), mul_comm]
  rw [Finset.sum_congr rfl this]
  simp only [Finset.sum_range_succ, Finset.sum_range_zero]
  norm_num
  ring

theorem neon6_eq {P : Plat} {grp : (Nat → Int) → (Nat → Int) → Int} {nb : Nat} {x : Nat → Q6K} {y : Nat → Q8K}
    (hx : ∀ i < nb, (x i).Bytes) (hy : ∀ i < nb, (y i).Bytes) (hs : ∀ i < nb, (y i).Sums)
    (hg : ∀ i < nb, (y i).d ≠ 0 → ∀ g < 16, grp (k6Bytes (x i) (g / 8) (g % 8 / 2) (g % 2)) (fun t => (y i).qs (16 * g + t)) =
      ∑ t ∈ Finset.range 16, (code6u (x i) (16 * g + t) : Int) * (y i).qs (16 * g + t)) :
    dotQ6KNeon P grp nb x y = dotR (256 * nb) (rowVal 256 (Q6K.val P) x) (rowVal 256 Q8K.val y) := by
  rw [rowK]
  unfold dotQ6KNeon
  induction nb with
  | zero => simp
  | succ n ih =>
    rw [List.range_succ (n := n), List.foldl_append, Finset.sum_range_succ,
      ih (fun i hi => hx i (by omega)) (fun i hi => hy i (by omega)) (fun i hi => hs i (by omega)) (fun i hi => hg i (by omega))]
    simp only [List.foldl_cons, List.foldl_nil]
    rw [q6K_block]
    by_cases hd : (y n).d = 0
    · rw [hd]; ring
    · have h0 := hx n (by omega); have h1 := hy n (by omega); have h2 := hs n (by omega); have h3 := hg n (by omega) hd
      have bd : ∀ g < 16, |(∑ t ∈ Finset.range 16, (code6u (x n) (16 * g + t) : Int) * (y n).qs (16 * g + t)) * (x n).scales g| ≤ 129024 * 128 :=
        fun g hg => mul_bound (unsigned_abs h0 h1 hg) (scale6_abs h0 hg)
      have e1 : (List.range 16).foldl (fun s g => i32 (s + grp (k6Bytes (x n) (g / 8) (g % 8 / 2) (g % 2)) (fun t => (y n).qs (16 * g + t)) * (x n).scales g)) 0 =
          ∑ g ∈ Finset.range 16, (∑ t ∈ Finset.range 16, (code6u (x n) (16 * g + t) : Int) * (y n).qs (16 * g + t)) * (x n).scales g := by
        rw [fold_i32 (f := fun g => grp (k6Bytes (x n) (g / 8) (g % 8 / 2) (g % 2)) (fun t => (y n).qs (16 * g + t)) * (x n).scales g) (B := 129024 * 128) 16 0
          (fun g hg => by rw [h3 g hg]; exact bd g hg) (by norm_num), zero_add]
        exact Finset.sum_congr rfl fun g hg => by rw [h3 g (Finset.mem_range.mp hg)]
      have e2 : (∑ g ∈ Finset.range 16, (∑ t ∈ Finset.range 16, (code6u (x n) (16 * g + t) : Int) * (y n).qs (16 * g + t)) * (x n).scales g) -
          32 * (∑ g ∈ Finset.range 16, (x n).scales g * ∑ t ∈ Finset.range 16, (y n).qs (16 * g + t)) = k6S (x n) (y n) := by
        unfold k6S
        rw [Finset.mul_sum, ← Finset.sum_sub_distrib]
        refine Finset.sum_congr rfl fun g _ => ?_
        rw [unsigned_sum]; ring
      have b6 : |k6S (x n) (y n)| ≤ 16 * (128 * (16 * (32 * 128))) := by
        have inner : ∀ g < 16, |∑ t ∈ Finset.range 16, (x n).code (16 * g + t) * (y n).qs (16 * g + t)| ≤ 16 * (32 * 128) := fun g hg => by
          exact_mod_cast sum_bound (n := 16) fun t ht => mul_bound (code6_abs h0 (j := 16 * g + t) (by omega)) (h1.abs (16 * g + t) (by omega))
        unfold k6S
        exact (sum_bound (n := 16) fun g hg => mul_bound (scale6_abs h0 hg) (inner g hg)).trans (by norm_num)
      rw [abs_le] at b6
      rw [e1, k6Mins_eq h0 h1 h2 hd, e2, i32_eq (by omega) (by omega)]

/-! ### AVX2 -/

theorem k6BytesAvx_eq {x : Q6K} (hx : x.Bytes) {j c t : Nat} (hj : j < 2) (hc : c < 4) (ht : t < 32) :
    k6BytesAvx x j c t = code6u x (128 * j + 32 * c + t) := by
  have e1 : (128 * j + 32 * c + t) / 128 = j := by omega
  have e2 : (128 * j + 32 * c + t) % 128 / 32 = c := by omega
  have e3 : (128 * j + 32 * c + t) % 32 = t := by omega
  have hH : ∀ u, u / 2 < 16 → (if c = 0 then x.qh (32 * j + u) else srli16 (2 * c) (fun t => x.qh (32 * j + t)) u) &&& 3 = x.qh (32 * j + u) / 4 ^ c % 4 := by
    intro u hu
    rw [and3]
    split
    · rename_i h0; rw [h0]; simp
    · have := srli16_and (k := 2 * c) (m := 2) (v := fun t => x.qh (32 * j + t)) (t := u) (fun w hw => hx.2.1 _ (by omega)) (by omega)
      rw [Nat.pow_mul] at this
      simpa using this
  have hsl : slli16 4 (fun t => (if c = 0 then x.qh (32 * j + t) else srli16 (2 * c) (fun t => x.qh (32 * j + t)) t) &&& 3) t =
      16 * (x.qh (32 * j + t) / 4 ^ c % 4) := by
    rw [slli16_4 t fun u hu => by rw [hH u (by omega)]; exact Nat.mod_lt _ (by norm_num), hH t (by omega)]
  have h1 := hx.1 (64 * j + 32 * (c % 2) + t) (by omega)
  have hq : (if c < 2 then x.ql (64 * j + 32 * (c % 2) + t) else srli16 4 (fun t => x.ql (64 * j + 32 * (c % 2) + t)) t) &&& 0xF =
      if c < 2 then x.ql (64 * j + 32 * (c % 2) + t) % 16 else x.ql (64 * j + 32 * (c % 2) + t) / 16 := by
    rw [and15]
    split
    · rfl
    · have := srli16_and (k := 4) (m := 4) (v := fun t => x.ql (64 * j + 32 * (c % 2) + t)) (t := t) (fun w hw => hx.1 _ (by omega)) (by omega)
      norm_num at this
      rw [this]; omega
  unfold k6BytesAvx code6u
  simp only
  rw [e1, e2, e3, hsl, hq]
  have e16 : 16 * (x.qh (32 * j + t) / 4 ^ c % 4) = (x.qh (32 * j + t) / 4 ^ c % 4) <<< 4 := by rw [Nat.shiftLeft_eq]; ring
  rw [e16, or_shl4 _ (by split <;> omega), Nat.shiftLeft_eq]
  ring

theorem shuffle6 {k l : Nat} (hk : k < 8) (hl : l < 16) : kShuffle6.getD (16 * k + l) 0 = 2 * k + l / 8 := by
  have : ∀ k < 8, ∀ l < 16, kShuffle6.getD (16 * k + l) 0 = 2 * k + l / 8 := by decide +kernel
  exact this k hk l hl

theorem k6TermAvx_eq {x : Q6K} {y : Q8K} (hx : x.Bytes) (hy : y.Bytes) {j c : Nat} (hj : j < 2) (hc : c < 4) :
    (∑ l ∈ Finset.range 8, k6TermAvx x y j c l =
      ∑ v ∈ Finset.range 2, x.scales (2 * (4 * j + c) + v) *
        ∑ t ∈ Finset.range 16, x.code (16 * (2 * (4 * j + c) + v) + t) * y.qs (16 * (2 * (4 * j + c) + v) + t)) ∧
    ∀ l < 8, |k6TermAvx x y j c l| ≤ 10000000 := by
  obtain ⟨f, hf⟩ : ∃ f : Nat → Int, f = fun t => x.code (128 * j + 32 * c + t) * y.qs (128 * j + 32 * c + t) := ⟨_, rfl⟩
  have hp : ∀ l < 16, i16 (maddubs (k6BytesAvx x j c) (fun t => y.qs (128 * j + 32 * c + t)) l - maddubs (fun _ => 32) (fun t => y.qs (128 * j + 32 * c + t)) l) =
      f (2 * l) + f (2 * l + 1) ∧ |f (2 * l) + f (2 * l + 1)| ≤ 32768 := by
    intro l hl
    have q0 := hy.abs (128 * j + 32 * c + 2 * l) (by omega)
    have q1 := hy.abs (128 * j + 32 * c + (2 * l + 1)) (by omega)
    have c0 := k6BytesAvx_eq hx hj hc (t := 2 * l) (by omega)
    have c1 := k6BytesAvx_eq hx hj hc (t := 2 * l + 1) (by omega)
    have u0 := code6u_le hx (p := 128 * j + 32 * c + 2 * l) (by omega)
    have u1 := code6u_le hx (p := 128 * j + 32 * c + (2 * l + 1)) (by omega)
    have b0 := mul_bound (code6_abs hx (j := 128 * j + 32 * c + 2 * l) (by omega)) q0
    have b1 := mul_bound (code6_abs hx (j := 128 * j + 32 * c + (2 * l + 1)) (by omega)) q1
    have m1 : maddubs (k6BytesAvx x j c) (fun t => y.qs (128 * j + 32 * c + t)) l = _ :=
      maddubs_eq (a := k6BytesAvx x j c) (b := fun t => y.qs (128 * j + 32 * c + t)) (l := l) (by rw [c0]; exact u0) (by rw [c1]; exact u1) q0 q1
    have m2 : maddubs (fun _ => 32) (fun t => y.qs (128 * j + 32 * c + t)) l = _ :=
      maddubs_eq (a := fun _ => 32) (b := fun t => y.qs (128 * j + 32 * c + t)) (l := l) (by norm_num) (by norm_num) q0 q1
    rw [m1, m2, c0, c1, code6u_eq, code6u_eq, hf]
    simp only
    rw [abs_le] at b0 b1
    have e : (x.code (128 * j + 32 * c + 2 * l) + 32) * y.qs (128 * j + 32 * c + 2 * l) + (x.code (128 * j + 32 * c + (2 * l + 1)) + 32) * y.qs (128 * j + 32 * c + (2 * l + 1)) -
        (((32 : Nat) : Int) * y.qs (128 * j + 32 * c + 2 * l) + ((32 : Nat) : Int) * y.qs (128 * j + 32 * c + (2 * l + 1))) =
        x.code (128 * j + 32 * c + 2 * l) * y.qs (128 * j + 32 * c + 2 * l) + x.code (128 * j + 32 * c + (2 * l + 1)) * y.qs (128 * j + 32 * c + (2 * l + 1)) := by
      push_cast; ring
    rw [e]
    refine ⟨i16_eq (by omega) (by omega), ?_⟩
    rw [abs_le]; constructor <;> omega
  have hsc : ∀ l < 16, x.scales (kShuffle6.getD (16 * (4 * j + c) + l) 0) = x.scales (2 * (4 * j + c) + l / 8) := fun l hl => by
    rw [shuffle6 (by omega) hl]
  obtain ⟨e, b⟩ := madd16_sum (s := fun l => x.scales (kShuffle6.getD (16 * (4 * j + c) + l) 0))
    (p := fun l => i16 (maddubs (k6BytesAvx x j c) (fun t => y.qs (128 * j + 32 * c + t)) l - maddubs (fun _ => 32) (fun t => y.qs (128 * j + 32 * c + t)) l))
    (fun l hl => by rw [hsc l hl]; exact scale6_abs hx (by omega)) (fun l hl => by rw [(hp l hl).1]; exact (hp l hl).2)
  refine ⟨?_, b⟩
  refine e.trans ?_
  rw [Finset.sum_congr rfl fun l hl => by rw [hsc l (Finset.mem_range.mp hl), (hp l (Finset.mem_range.mp hl)).1],
    ← sum_group (fun l => x.scales (2 * (4 * j + c) + l / 8) * (f (2 * l) + f (2 * l + 1))) 2 8]
  refine Finset.sum_congr rfl fun v hv => ?_
  have hv := Finset.mem_range.mp hv
  rw [Finset.sum_congr rfl fun t ht => by rw [show (8 * v + t) / 8 = v by have := Finset.mem_range.mp ht; omega], ← Finset.mul_sum]
  congr 1
  rw [← sum_group (fun t => x.code (16 * (2 * (4 * j + c) + v) + t) * y.qs (16 * (2 * (4 * j + c) + v) + t)) 8 2]
  refine Finset.sum_congr rfl fun t _ => ?_
  rw [hf]
  simp only [Finset.sum_range_succ, Finset.sum_range_zero, zero_add]
  rw [show 128 * j + 32 * c + 2 * (8 * v + t) = 16 * (2 * (4 * j + c) + v) + (2 * t + 0) by omega,
    show 128 * j + 32 * c + (2 * (8 * v + t) + 1) = 16 * (2 * (4 * j + c) + v) + (2 * t + 1) by omega]

theorem k6SumAvx_eq {x : Q6K} {y : Q8K} (hx : x.Bytes) (hy : y.Bytes) : ∑ l ∈ Finset.range 8, k6SumAvx x y l = k6S x y := by
  have t := fun j c (hj : j < 2) (hc : c < 4) => k6TermAvx_eq hx hy hj hc
  have bd2 : ∀ {j c c'}, j < 2 → c < 4 → c' < 4 → ∀ l < 8, |vadd32 (k6TermAvx x y j c) (k6TermAvx x y j c') l| ≤ 20000000 := by
    intro j c c' hj hc hc' l hl
    have b1 := (t j c hj hc).2 l hl; have b2 := (t j c' hj hc').2 l hl
    rw [abs_le] at b1 b2
    unfold vadd32
    rw [i32_eq (by omega) (by omega), abs_le]; constructor <;> omega
  have s2 : ∀ {j c c'}, j < 2 → c < 4 → c' < 4 → ∑ l ∈ Finset.range 8, vadd32 (k6TermAvx x y j c) (k6TermAvx x y j c') l =
      (∑ l ∈ Finset.range 8, k6TermAvx x y j c l) + ∑ l ∈ Finset.range 8, k6TermAvx x y j c' l := fun hj hc hc' =>
    vadd32_sum (fun l hl => ((t _ _ hj hc).2 l hl).trans (by norm_num)) (fun l hl => ((t _ _ hj hc').2 l hl).trans (by norm_num))
  -- the two rounds of the loop
  have step : ∀ (s : Nat → Int) (j : Nat) (B : Int), j < 2 → B ≤ 100000000 → (∀ l < 8, |s l| ≤ B) →
      (∑ l ∈ Finset.range 8, vadd32 (vadd32 s (vadd32 (k6TermAvx x y j 0) (k6TermAvx x y j 1))) (vadd32 (k6TermAvx x y j 2) (k6TermAvx x y j 3)) l =
        (∑ l ∈ Finset.range 8, s l) + ∑ c ∈ Finset.range 4, ∑ l ∈ Finset.range 8, k6TermAvx x y j c l) ∧
      ∀ l < 8, |vadd32 (vadd32 s (vadd32 (k6TermAvx x y j 0) (k6TermAvx x y j 1))) (vadd32 (k6TermAvx x y j 2) (k6TermAvx x y j 3)) l| ≤ B + 40000000 := by
    intro s j B hj hB hs
    have h1 : ∀ l < 8, |vadd32 s (vadd32 (k6TermAvx x y j 0) (k6TermAvx x y j 1)) l| ≤ B + 20000000 := by
      intro l hl
      have b1 := hs l hl; have b2 := bd2 hj (c := 0) (c' := 1) (by norm_num) (by norm_num) l hl
      obtain ⟨v, hv⟩ : ∃ v, v = vadd32 (k6TermAvx x y j 0) (k6TermAvx x y j 1) l := ⟨_, rfl⟩
      unfold vadd32 at hv ⊢
      rw [← hv]
      have hv2 : v = vadd32 (k6TermAvx x y j 0) (k6TermAvx x y j 1) l := hv
      rw [← hv2] at b2
      rw [abs_le] at b1 b2
      rw [i32_eq (by omega) (by omega), abs_le]; constructor <;> omega
    constructor
    · rw [vadd32_sum (fun l hl => (h1 l hl).trans (by omega)) (fun l hl => (bd2 hj (by norm_num) (by norm_num) l hl).trans (by norm_num)),
        vadd32_sum (fun l hl => (hs l hl).trans (by omega)) (fun l hl => (bd2 hj (by norm_num) (by norm_num) l hl).trans (by norm_num)),
        s2 hj (by norm_num) (by norm_num), s2 hj (by norm_num) (by norm_num)]
      simp only [Finset.sum_range_succ _ 3, Finset.sum_range_succ _ 2, Finset.sum_range_succ _ 1, Finset.sum_range_succ _ 0, Finset.sum_range_zero]
      ring
    · intro l hl
      have b1 := h1 l hl
      have b2 := bd2 hj (c := 2) (c' := 3) (by norm_num) (by norm_num) l hl
      obtain ⟨v, hv⟩ : ∃ v, v = vadd32 (k6TermAvx x y j 2) (k6TermAvx x y j 3) l := ⟨_, rfl⟩
      obtain ⟨u, hu⟩ : ∃ u, u = vadd32 s (vadd32 (k6TermAvx x y j 0) (k6TermAvx x y j 1)) l := ⟨_, rfl⟩
      show |i32 (vadd32 s (vadd32 (k6TermAvx x y j 0) (k6TermAvx x y j 1)) l + vadd32 (k6TermAvx x y j 2) (k6TermAvx x y j 3) l)| ≤ _
      rw [← hu] at b1 ⊢
      rw [← hv] at b2 ⊢
      rw [abs_le] at b1 b2
      rw [i32_eq (by omega) (by omega), abs_le]; constructor <;> omega
  obtain ⟨a1, b1⟩ := step (fun _ => 0) 0 0 (by norm_num) (by norm_num) (by simp)
  obtain ⟨a2, -⟩ := step _ 1 _ (by norm_num) (by norm_num) b1
  have e : k6SumAvx x y = vadd32 (vadd32 (vadd32 (vadd32 (fun _ => 0) (vadd32 (k6TermAvx x y 0 0) (k6TermAvx x y 0 1))) (vadd32 (k6TermAvx x y 0 2) (k6TermAvx x y 0 3)))
      (vadd32 (k6TermAvx x y 1 0) (k6TermAvx x y 1 1))) (vadd32 (k6TermAvx x y 1 2) (k6TermAvx x y 1 3)) := rfl
  rw [e, a2, a1]
  unfold k6S
  obtain ⟨G, hG⟩ : ∃ G : Nat → Int, G = fun g => x.scales g * ∑ t ∈ Finset.range 16, x.code (16 * g + t) * y.qs (16 * g + t) := ⟨_, rfl⟩
  have tg : ∀ j c, j < 2 → c < 4 → ∑ l ∈ Finset.range 8, k6TermAvx x y j c l = G (2 * (4 * j + c)) + G (2 * (4 * j + c) + 1) := fun j c hj hc => by
    rw [(t j c hj hc).1, hG]
    simp [Finset.sum_range_succ _ 1, Finset.sum_range_succ _ 0]
  rw [Finset.sum_congr rfl fun c hc => tg 0 c (by norm_num) (Finset.mem_range.mp hc), Finset.sum_congr rfl fun c hc => tg 1 c (by norm_num) (Finset.mem_range.mp hc)]
  have : ∑ g ∈ Finset.range 16, x.scales g * ∑ t ∈ Finset.range 16, x.code (16 * g + t) * y.qs (16 * g + t) = ∑ g ∈ Finset.range 16, G g := by rw [hG]
  rw [this]
  simp only [Finset.sum_range_succ, Finset.sum_range_zero]
  norm_num
  ring

/-! ### Scalar -/

theorem k6Codes_eq {x : Q6K} (hx : x.Bytes) {t : Nat} (ht : t < 256) : k6Codes x t = x.code t := by
  have hc := code6_bd hx ht
  have e : q6At x.ql x.qh (t / 128) (t % 32) (t % 128 / 32) = x.code t := by
    rw [q6At_code hx (by omega) (by omega) (by omega), show 128 * (t / 128) + (t % 32 + 32 * (t % 128 / 32)) = t by omega]
  unfold k6Codes
  rw [e]
  exact i8_eq (by omega) (by omega)

/-- `q6_K · q8_K`: with AVX2, in the scalar build, with NEON dot products, and with plain NEON when each sixteen has a
product (of the unsigned codes) that fits in sixteen bits, the call writes exactly `*s`, the dot product of the two
dequantised rows. -/
theorem C131_dot_q6_K_partial {tg : SimdK} (P : Plat) (n s : Nat) {x : Nat → Q6K} {y : Nat → Q8K}
    (hx : ∀ i < n / 256, (x i).Bytes) (hy : ∀ i < n / 256, (y i).Bytes) (hs : ∀ i < n / 256, (y i).Sums)
    (hp : tg = .neonPlain → ∀ i < n / 256, ∀ g < 16,
      -32768 ≤ ∑ t ∈ Finset.range 16, ((x i).code (16 * g + t) + 32) * (y i).qs (16 * g + t) ∧
      ∑ t ∈ Finset.range 16, ((x i).code (16 * g + t) + 32) * (y i).qs (16 * g + t) ≤ 32767) :
    dotQ6K tg P n s x y = [Upd.put s (dotR (256 * (n / 256)) (rowVal 256 (Q6K.val P) x) (rowVal 256 Q8K.val y))] := by
  have kb : ∀ i < n / 256, ∀ g < 16, ∀ t < 16, k6Bytes (x i) (g / 8) (g % 8 / 2) (g % 2) t = (code6u (x i) (16 * g + t) : Int) :=
    fun i hi g hg t ht => by
      rw [k6Bytes_eq (hx i hi) (by omega) (by omega) (by omega) ht, show 8 * (g / 8) + 2 * (g % 8 / 2) + g % 2 = g by omega]
  have ks : ∀ i < n / 256, ∀ g < 16, ∑ t ∈ Finset.range 16, k6Bytes (x i) (g / 8) (g % 8 / 2) (g % 2) t * (y i).qs (16 * g + t) =
      ∑ t ∈ Finset.range 16, (code6u (x i) (16 * g + t) : Int) * (y i).qs (16 * g + t) := fun i hi g hg =>
    Finset.sum_congr rfl fun t ht => by rw [kb i hi g hg t (Finset.mem_range.mp ht)]
  cases tg with
  | neonDotprod =>
    refine congrArg (fun v => [Upd.put s v]) (neon6_eq hx hy hs fun i hi _ g hg => ?_)
    rw [k6GroupDot_eq (fun t ht => by
      rw [kb i hi g hg t ht]; have := code6u_le (hx i hi) (p := 16 * g + t) (by omega); rw [abs_le]; omega) (fun t ht => (hy i hi).abs _ (by omega))]
    exact ks i hi g hg
  | neonPlain =>
    refine congrArg (fun v => [Upd.put s v]) (neon6_eq hx hy hs fun i hi _ g hg => ?_)
    have := hp rfl i hi g hg
    rw [k6GroupMull_eq, ks i hi g hg]
    have e : ∑ t ∈ Finset.range 16, (code6u (x i) (16 * g + t) : Int) * (y i).qs (16 * g + t) =
        ∑ t ∈ Finset.range 16, ((x i).code (16 * g + t) + 32) * (y i).qs (16 * g + t) := Finset.sum_congr rfl fun t _ => by rw [code6u_eq]
    rw [e]
    exact i16_eq this.1 this.2
  | avx2 =>
    refine congrArg (fun v => [Upd.put s v]) ?_
    rw [hsum8_eq, rowK]
    refine Finset.sum_congr rfl fun i hi => ?_
    have hi := Finset.mem_range.mp hi
    rw [q6K_block, k6SumAvx_eq (hx i hi) (hy i hi)]; ring
  | scalar =>
    refine congrArg (fun v => [Upd.put s v]) ?_
    have pre : ∀ (r : Nat → ℝ), (List.range 8).foldl (fun s l => s + r l) 0 = ∑ l ∈ Finset.range 8, r l := by
      intro r
      simp [List.range, List.range.loop, Finset.sum_range_succ]
    rw [pre, Finset.sum_congr rfl fun l _ => fmaLoop_eq .., Finset.sum_comm, rowK]
    refine Finset.sum_congr rfl fun i hi => ?_
    have hi := Finset.mem_range.mp hi
    rw [← Finset.mul_sum, ← Int.cast_sum, q6K_block, aux32_sum (Or.inl rfl) (fun g hg => scale6_abs (hx i hi) (by simpa using hg)) (hy i hi).abs
      (fun t ht => by rw [k6Codes_eq (hx i hi) ht]; exact code6_abs (hx i hi) ht)]
    congr 2
    unfold k6S
    refine Finset.sum_congr rfl fun g hg => ?_
    have hg := Finset.mem_range.mp hg
    congr 1
    refine Finset.sum_congr rfl fun t ht => ?_
    have ht := Finset.mem_range.mp ht
    rw [k6Codes_eq (hx i hi) (by omega)]

/-! ### Violations: sums in sixteen bits -/

/-- A block whose first group is all `15`, against a block whose bytes are all `-128`. -/
def full4 (d : Nat) : Q4K := ⟨d, 0, fun j => if j = 0 then 1 else 0, fun _ => 255⟩
noncomputable def low8 : Q8K := ⟨1, fun _ => -128, fun _ => -2048⟩

theorem low8_ok : low8.Bytes ∧ low8.Sums := by
  refine ⟨fun j _ => by simp [low8], fun _ g _ => ?_⟩
  simp [low8]

theorem full4_ok (d : Nat) : (full4 d).Bytes := by
  refine ⟨fun j _ => by simp [full4], fun j _ => ?_⟩
  show (if j = 0 then 1 else 0) < 256
  split <;> norm_num

theorem full4_grp (d j h : Nat) : grp4 (full4 d) low8 j h = -61440 := by
  have : ∀ t ∈ Finset.range 32, ((full4 d).code (64 * j + 32 * h + t) : Int) * low8.qs (64 * j + 32 * h + t) = -1920 := by
    intro t _
    unfold Q4K.code full4 low8
    simp
  unfold grp4
  rw [Finset.sum_congr rfl this]
  decide

theorem full4_scale (d : Nat) {g : Nat} (hg : g < 8) : (full4 d).scale g = if g = 0 then 1 else 0 := by
  unfold Q4K.scale full4
  interval_cases g <;> norm_num

theorem full4_min (d : Nat) {g : Nat} (hg : g < 8) : (full4 d).min g = 0 := by
  unfold Q4K.min full4
  interval_cases g <;> norm_num

/-- Violation: plain NEON sums a group of 32 in sixteen bits: the stored number has the wrong sign. -/
theorem C131_plain_neon_q4_K_violated (P : Plat) (d : Nat) (hd : 0 < P.load d) (s : Nat) :
    dotQ4K .neonPlain P 256 s (fun _ => full4 d) (fun _ => low8) = [Upd.put s (P.load d * 4096)] ∧
    dotR 256 (rowVal 256 (Q4K.val P) fun _ => full4 d) (rowVal 256 Q8K.val fun _ => low8) = -(P.load d * 61440) ∧
    P.load d * 4096 ≠ -(P.load d * 61440) := by
  have hM : k4M (full4 d) low8 = 0 := by
    unfold k4M
    refine Finset.sum_eq_zero fun g hg => ?_
    rw [full4_min d (Finset.mem_range.mp hg)]; simp
  have hS : k4S (full4 d) low8 = -61440 := by
    rw [← k4S_eq]
    simp [full4_grp, Finset.sum_range_succ, full4_scale]
  have hacc : ∀ h < 2, k4Acc (fun j => k4GroupMull (full4 d) low8 j h) (fun j => scaleByte (full4 d).scales (2 * j + h)) = if h = 0 then 4096 else 0 := by
    intro h hh
    obtain ⟨e, -⟩ := k4Acc_eq (x := full4 d) (f := fun j => k4GroupMull (full4 d) low8 j h) (g := fun _ => 4096) (h := h) (full4_ok d) hh
      fun j _ => ⟨by rw [k4GroupMull_eq _ _ _ hh, full4_grp]; decide, by norm_num⟩
    rw [e]
    have : h = 0 ∨ h = 1 := by omega
    rcases this with rfl | rfl <;> simp [Finset.sum_range_succ, full4_scale]
  refine ⟨?_, ?_, ?_⟩
  · show [Upd.put s (dotQ4KNeon P k4GroupMull (256 / 256) (fun _ => full4 d) (fun _ => low8))] = _
    unfold dotQ4KNeon
    have h1 : low8.d ≠ 0 := by simp [low8]
    simp only [show List.range (256 / 256) = [0] from rfl, List.foldl_cons, List.foldl_nil]
    have a0 := hacc 0 (by norm_num); have a1 := hacc 1 (by norm_num)
    rw [a0, a1, k4MinNeon_eq (full4_ok d) low8_ok.1 low8_ok.2 h1, hM]
    have : i32 ((if 0 = 0 then 4096 else 0) + if 1 = 0 then 4096 else 0) = 4096 := by decide
    rw [this]
    have hd1 : low8.d = 1 := rfl
    have hd2 : (full4 d).d = d := rfl
    rw [hd1, hd2]
    refine congrArg (fun v : ℝ => [Upd.put s v]) ?_
    push_cast
    ring
  · have := rowK (Q4K.val P) 1 (fun _ => full4 d) (fun _ => low8)
    have hd1 : low8.d = 1 := rfl
    have hd2 : (full4 d).d = d := rfl
    obtain ⟨m, hm⟩ : ∃ m, m = 256 * 1 := ⟨_, rfl⟩
    rw [← hm, Finset.sum_range_one, q4K_block, hM, hS, hd1, hd2] at this
    have h256 : m = 256 := hm
    rw [h256] at this
    refine this.trans ?_
    push_cast
    ring
  · clear hM hS hacc
    intro h; linarith

/-! ### After quantising the activations -/

/-- The row that `quantize_row_q8_K` writes, block by block. -/
noncomputable def rowQ8K (rnd : ℝ → Int) (junk : Nat → Nat → Int) (x : Nat → ℝ) (i : Nat) : Q8K := q8KBlock rnd (junk i) fun j => x (i * 256 + j)

theorem rowQ8K_get (rnd : ℝ → Int) (junk : Nat → Int) (n : Nat) (x : Nat → ℝ) {i : Nat} (hi : i < n / 256) :
    (quantQ8K rnd junk n x)[i]? = some (rowQ8K rnd (fun _ => junk) x i) := by
  unfold quantQ8K
  rw [byPtr_eq]
  exact byIndex_get _ _ _ hi

/-- A row of `K` blocks against quantised activations: the stored number is within `amax / 128` per element, weighted
by the weights, of the dot product with the activations themselves. -/
theorem dot_error {rnd : ℝ → Int} (hr : Rounds rnd) (junk : Nat → Nat → Int) (nb : Nat) (w x : Nat → ℝ) (A : Nat → ℝ)
    (hA : ∀ i < nb, ∀ j < 256, |x (i * 256 + j)| ≤ A i) :
    |dotR (256 * nb) w (rowVal 256 Q8K.val (rowQ8K rnd junk x)) - dotR (256 * nb) w x| ≤
      ∑ i ∈ Finset.range nb, A i / 128 * ∑ j ∈ Finset.range 256, |w (256 * i + j)| := by
  unfold dotR
  rw [← Finset.sum_sub_distrib, ← sum_group]
  refine (Finset.abs_sum_le_sum_abs _ _).trans (Finset.sum_le_sum fun i hi => ?_)
  have hi := Finset.mem_range.mp hi
  rw [Finset.mul_sum]
  refine (Finset.abs_sum_le_sum_abs _ _).trans (Finset.sum_le_sum fun j hj => ?_)
  have hj := Finset.mem_range.mp hj
  obtain ⟨-, a, ⟨-, k, hk, hka⟩, -, hb, -⟩ := q8KBlock_is hr (junk i) fun j => x (i * 256 + j)
  have h := (hb j hj).2
  have hAa : a ≤ A i := by rw [← hka]; exact hA i hi k hk
  rw [← mul_sub, abs_mul, mul_comm]
  refine mul_le_mul_of_nonneg_right ?_ (abs_nonneg _)
  have e : rowVal 256 Q8K.val (rowQ8K rnd junk x) (256 * i + j) = (rowQ8K rnd junk x i).d * (rowQ8K rnd junk x i).qs j := by
    unfold rowVal Q8K.val
    rw [Nat.mul_add_div (by norm_num), Nat.div_eq_of_lt hj, Nat.add_zero, Nat.mul_add_mod, Nat.mod_eq_of_lt hj]
  rw [e, abs_sub_comm, show 256 * i + j = i * 256 + j by ring]
  exact h.trans (by linarith)

theorem dotR_congr {nb : Nat} {y y' : Nat → Q8K} (hy : ∀ i < nb, y i = y' i) {w : Nat → ℝ} :
    dotR (256 * nb) w (rowVal 256 Q8K.val y) = dotR (256 * nb) w (rowVal 256 Q8K.val y') := by
  unfold dotR
  refine Finset.sum_congr rfl fun p hp => ?_
  unfold rowVal
  rw [hy _ (Nat.div_lt_of_lt_mul (Finset.mem_range.mp hp))]

/-- `q4_K` weights against quantised activations, every build but plain NEON. -/
theorem C131_matvec_q4_K {tg : SimdK} (htg : tg ≠ .neonPlain) (P : Plat) {rnd : ℝ → Int} (hr : Rounds rnd) (junk : Nat → Nat → Int)
    (n s : Nat) (hn : n % 256 = 0) {w : Nat → Q4K} (hw : ∀ i < n / 256, (w i).Bytes) (x A : Nat → ℝ) {y : Nat → Q8K}
    (hy : ∀ i < n / 256, y i = rowQ8K rnd junk x i)
    (hA : ∀ i < n / 256, ∀ j < 256, |x (i * 256 + j)| ≤ A i) :
    ∃ v, dotQ4K tg P n s w y = [Upd.put s v] ∧
      |v - ∑ p ∈ Finset.range n, rowVal 256 (Q4K.val P) w p * x p| ≤
        ∑ i ∈ Finset.range (n / 256), A i / 128 * ∑ j ∈ Finset.range 256, |rowVal 256 (Q4K.val P) w (256 * i + j)| := by
  refine ⟨_, C131_dot_q4_K_partial P n s hw (fun i hi => by rw [hy i hi]; exact (q8KBlock_is hr (junk i) _).1) (fun i hi => ?_) (fun h => absurd h htg), ?_⟩
  · obtain ⟨-, a, -, -, -, h⟩ := q8KBlock_is hr (junk i) fun j => x (i * 256 + j)
    rw [hy i hi]; exact h
  · have e : n = 256 * (n / 256) := by omega
    have := dot_error hr junk (n / 256) (rowVal 256 (Q4K.val P) w) x A hA
    rw [dotR_congr hy]
    rw [dotR, dotR, ← e] at this
    rw [dotR, ← e]
    exact this

/-- `q6_K` weights against quantised activations, every build but plain NEON. -/
theorem C131_matvec_q6_K {tg : SimdK} (htg : tg ≠ .neonPlain) (P : Plat) {rnd : ℝ → Int} (hr : Rounds rnd) (junk : Nat → Nat → Int)
    (n s : Nat) (hn : n % 256 = 0) {w : Nat → Q6K} (hw : ∀ i < n / 256, (w i).Bytes) (x A : Nat → ℝ) {y : Nat → Q8K}
    (hy : ∀ i < n / 256, y i = rowQ8K rnd junk x i)
    (hA : ∀ i < n / 256, ∀ j < 256, |x (i * 256 + j)| ≤ A i) :
    ∃ v, dotQ6K tg P n s w y = [Upd.put s v] ∧
      |v - ∑ p ∈ Finset.range n, rowVal 256 (Q6K.val P) w p * x p| ≤
        ∑ i ∈ Finset.range (n / 256), A i / 128 * ∑ j ∈ Finset.range 256, |rowVal 256 (Q6K.val P) w (256 * i + j)| := by
  refine ⟨_, C131_dot_q6_K_partial P n s hw (fun i hi => by rw [hy i hi]; exact (q8KBlock_is hr (junk i) _).1) (fun i hi => ?_) (fun h => absurd h htg), ?_⟩
  · obtain ⟨-, a, -, -, -, h⟩ := q8KBlock_is hr (junk i) fun j => x (i * 256 + j)
    rw [hy i hi]; exact h
  · have e : n = 256 * (n / 256) := by omega
    have := dot_error hr junk (n / 256) (rowVal 256 (Q6K.val P) w) x A hA
    rw [dotR_congr hy]
    rw [dotR, dotR, ← e] at this
    rw [dotR, ← e]
    exact this

/-! ### The hypotheses can be met -/

/-- A full row of 15s against -128s meets the hypotheses of `C131_dot_q4_K_partial` in every build but plain NEON, and the product is not zero. -/
example : (∀ i < 512 / 256, ((fun _ => full4 15360) i : Q4K).Bytes) ∧ (∀ i < 512 / 256, ((fun _ => low8) i : Q8K).Bytes) ∧
    (∀ i < 512 / 256, ((fun _ => low8) i : Q8K).Sums) ∧ k4S (full4 15360) low8 ≠ 0 := by
  refine ⟨fun _ _ => full4_ok _, fun _ _ => low8_ok.1, fun _ _ => low8_ok.2, ?_⟩
  rw [← k4S_eq]
  simp [full4_grp, Finset.sum_range_succ, full4_scale]

/-- In plain NEON small codes fit: a block of ones against a block of ones. -/
example : let x : Q4K := ⟨15360, 0, fun _ => 1, fun _ => 17⟩
    let y : Q8K := ⟨1, fun _ => 1, fun _ => 16⟩
    x.Bytes ∧ y.Bytes ∧ y.Sums ∧ ∀ g < 8, ∑ t ∈ Finset.range 32, (x.code (32 * g + t) : Int) * y.qs (32 * g + t) = 32 := by
  refine ⟨⟨fun j _ => by norm_num, fun j _ => by norm_num⟩, fun j _ => by norm_num, fun _ g _ => by simp, fun g _ => ?_⟩
  have : ∀ t ∈ Finset.range 32, ((⟨15360, 0, fun _ => 1, fun _ => 17⟩ : Q4K).code (32 * g + t) : Int) * 1 = 1 := by
    intro t _
    unfold Q4K.code; simp
  rw [Finset.sum_congr rfl this]; simp

example : let x : Q6K := ⟨fun _ => 255, fun _ => 170, fun _ => 3, 15360⟩
    x.Bytes ∧ x.code 0 = 15 ∧ x.code 200 = 15 := by
  refine ⟨⟨fun j _ => by norm_num, fun j _ => by norm_num, fun j _ => by norm_num⟩, by decide, by decide⟩

end Verif.Quant
