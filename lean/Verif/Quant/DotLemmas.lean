import Verif.Quant.Dot
import Verif.Quant.PropsBlocks

/-! Lane arithmetic of the quantised dot products. -/

namespace Verif.Quant

theorem fmaLoop_eq (nb : Nat) (d : Nat → ℝ) (q : Nat → Nat → Int) (l : Nat) :
    fmaLoop nb d q l = ∑ i ∈ Finset.range nb, d i * (q i l : ℝ) := by
  unfold fmaLoop
  induction nb with
  | zero => simp
  | succ n ih => rw [List.range_succ, List.foldl_append, Finset.sum_range_succ, ← ih]; rfl

theorem fmaLanes_eq (nb : Nat) (d : Nat → Nat → ℝ) (q : Nat → Nat → Int) (l : Nat) :
    fmaLanes nb d q l = ∑ i ∈ Finset.range nb, d i l * (q i l : ℝ) := by
  unfold fmaLanes
  induction nb with
  | zero => simp
  | succ n ih => rw [List.range_succ, List.foldl_append, Finset.sum_range_succ, ← ih]; rfl

theorem hsum8_eq (nb : Nat) (d : Nat → ℝ) (q : Nat → Nat → Int) :
    hsum8 (fmaLoop nb d q) = ∑ i ∈ Finset.range nb, d i * ((∑ l ∈ Finset.range 8, q i l : Int) : ℝ) := by
  unfold hsum8
  simp only [fmaLoop_eq, ← Finset.sum_add_distrib]
  refine Finset.sum_congr rfl fun i _ => ?_
  simp only [Finset.sum_range_succ, Finset.sum_range_zero]
  push_cast; ring

theorem vaddvF_eq (nb : Nat) (d : Nat → ℝ) (q : Nat → Nat → Int) :
    vaddvF (fmaLoop nb d q) = ∑ i ∈ Finset.range nb, d i * ((∑ l ∈ Finset.range 4, q i l : Int) : ℝ) := by
  unfold vaddvF
  simp only [fmaLoop_eq, ← Finset.sum_add_distrib]
  refine Finset.sum_congr rfl fun i _ => ?_
  simp only [Finset.sum_range_succ, Finset.sum_range_zero]
  push_cast; ring

theorem sum_pairs {α : Type} [AddCommMonoid α] (f : Nat → α) (n : Nat) :
    (∑ t ∈ Finset.range n, f (2 * t)) + (∑ t ∈ Finset.range n, f (2 * t + 1)) = ∑ i ∈ Finset.range (2 * n), f i := by
  rw [← Finset.sum_add_distrib, ← sum_group f n 2]
  exact Finset.sum_congr rfl fun t _ => by simp [Finset.sum_range_succ]

theorem pairLoop_eq (nb : Nat) (d : Nat → ℝ) (q : Nat → Nat → Int) :
    pairLoop nb d q = ∑ i ∈ Finset.range (2 * ((nb + 1) / 2)), d i * ((∑ l ∈ Finset.range 4, q i l : Int) : ℝ) := by
  unfold pairLoop
  rw [vaddvF_eq, vaddvF_eq]
  exact sum_pairs (fun i => d i * ((∑ l ∈ Finset.range 4, q i l : Int) : ℝ)) _

/-- The real dot product of two block rows, block by block. -/
theorem dotR_rows {α β : Type} (w nb : Nat) (hw : 0 < w) (u : α → Nat → ℝ) (v : β → Nat → ℝ) (x : Nat → α) (y : Nat → β) :
    dotR (w * nb) (rowVal w u x) (rowVal w v y) = ∑ i ∈ Finset.range nb, ∑ j ∈ Finset.range w, u (x i) j * v (y i) j := by
  unfold dotR
  rw [← sum_group]
  refine Finset.sum_congr rfl fun i _ => Finset.sum_congr rfl fun j hj => ?_
  have hj := Finset.mem_range.mp hj
  simp only [rowVal]
  rw [Nat.mul_add_div hw, Nat.div_eq_of_lt hj, Nat.add_zero, Nat.mul_add_mod, Nat.mod_eq_of_lt hj]

theorem prod_bd {a b A B : Int} (ha : |a| ≤ A) (hb : |b| ≤ B) : -(A * B) ≤ a * b ∧ a * b ≤ A * B := by
  have := mul_bound ha hb
  rw [abs_le] at this; exact this

/-! ### Signed bytes -/

theorem sign8_prod {x y : Int} (hx : |x| ≤ 128) (hy : |y| ≤ 127) :
    (((sign8 x x).emod 256).toNat : Int) * sign8 y x = x * y := by
  rw [abs_le] at hx hy
  unfold sign8
  by_cases h : x < 0
  · rw [if_pos h, if_pos h, i8_eq (n := -y) (by omega) (by omega)]
    have : (((i8 (-x)).emod 256).toNat : Int) = -x := by
      by_cases h8 : x = -128
      · subst h8; decide
      · rw [i8_eq (by omega) (by omega)]
        have e : (-x).emod 256 = -x := Int.emod_eq_of_lt (by omega) (by omega)
        rw [e]; omega
    rw [this]; ring
  · rw [if_neg h, if_neg h]
    by_cases h0 : x = 0
    · rw [if_pos h0, if_pos h0, h0]; simp
    · rw [if_neg h0, if_neg h0]
      have e : x.emod 256 = x := Int.emod_eq_of_lt (by omega) (by omega)
      rw [e, Int.toNat_of_nonneg (by omega)]

theorem mulSumI8_eq {x y : Nat → Int} (hx : ∀ j < 32, |x j| ≤ 128) (hy : ∀ j < 32, |y j| ≤ 127) :
    ∑ l ∈ Finset.range 8, mulSumI8 x y l = ∑ j ∈ Finset.range 32, x j * y j := by
  have hm : ∀ l < 16, maddubs (fun t => ((sign8 (x t) (x t)).emod 256).toNat) (fun t => sign8 (y t) (x t)) l =
      x (2 * l) * y (2 * l) + x (2 * l + 1) * y (2 * l + 1) := by
    intro l hl
    unfold maddubs
    rw [sign8_prod (hx _ (by omega)) (hy _ (by omega)), sign8_prod (hx _ (by omega)) (hy _ (by omega))]
    have b1 := prod_bd (hx (2 * l) (by omega)) (hy (2 * l) (by omega))
    have b2 := prod_bd (hx (2 * l + 1) (by omega)) (hy (2 * l + 1) (by omega))
    exact sat16_eq (by omega) (by omega)
  rw [← sum_group (fun j => x j * y j) 8 4]
  refine Finset.sum_congr rfl fun l hl => ?_
  have hl := Finset.mem_range.mp hl
  unfold mulSumI8 madd16
  rw [hm _ (by omega), hm _ (by omega)]
  have b : ∀ t < 4, -(128 * 127) ≤ x (4 * l + t) * y (4 * l + t) ∧ x (4 * l + t) * y (4 * l + t) ≤ 128 * 127 := fun t ht =>
    prod_bd (hx _ (by omega)) (hy _ (by omega))
  have b0 := b 0 (by omega); have b1 := b 1 (by omega); have b2 := b 2 (by omega); have b3 := b 3 (by omega)
  simp only [Finset.sum_range_succ, Finset.sum_range_zero, zero_add]
  have e0 : 2 * (2 * l) = 4 * l + 0 := by omega
  have e2 : 2 * (2 * l + 1) = 4 * l + 2 := by omega
  simp only [e0, e2, Nat.add_assoc, Nat.zero_add, Nat.reduceAdd, one_mul]
  rw [i32_eq (by omega) (by omega)]
  ring

theorem vdot_eq {acc a b : Nat → Int} {l : Nat} {C : Int} (hC : |acc l| ≤ C) (hc : C ≤ 1000000000)
    (ha : ∀ t < 16, |a t| ≤ 128) (hb : ∀ t < 16, |b t| ≤ 128) (hl : l < 4) :
    vdot acc a b l = acc l + ∑ t ∈ Finset.range 4, a (4 * l + t) * b (4 * l + t) := by
  unfold vdot
  have := sum_bound (n := 4) (f := fun t => a (4 * l + t) * b (4 * l + t)) (B := 128 * 128)
    fun t ht => mul_bound (ha _ (by omega)) (hb _ (by omega))
  rw [abs_le] at this hC
  push_cast at this
  exact i32_eq (by omega) (by omega)

/-- Two chained `vdotq_s32` over 32 bytes. -/
theorem vdot2_sum {a1 b1 a2 b2 : Nat → Int} (h1 : ∀ t < 16, |a1 t| ≤ 128) (h2 : ∀ t < 16, |b1 t| ≤ 128)
    (h3 : ∀ t < 16, |a2 t| ≤ 128) (h4 : ∀ t < 16, |b2 t| ≤ 128) :
    ∑ l ∈ Finset.range 4, vdot (vdot (fun _ => 0) a1 b1) a2 b2 l =
      (∑ t ∈ Finset.range 16, a1 t * b1 t) + ∑ t ∈ Finset.range 16, a2 t * b2 t := by
  have e : ∀ l < 4, vdot (fun _ => 0) a1 b1 l = ∑ t ∈ Finset.range 4, a1 (4 * l + t) * b1 (4 * l + t) := fun l hl => by
    rw [vdot_eq (C := 0) (by simp) (by norm_num) h1 h2 hl, zero_add]
  have e2 : ∀ l ∈ Finset.range 4, vdot (vdot (fun _ => 0) a1 b1) a2 b2 l =
      (∑ t ∈ Finset.range 4, a1 (4 * l + t) * b1 (4 * l + t)) + ∑ t ∈ Finset.range 4, a2 (4 * l + t) * b2 (4 * l + t) := by
    intro l hl
    have hl := Finset.mem_range.mp hl
    have hb := sum_bound (n := 4) (f := fun t => a1 (4 * l + t) * b1 (4 * l + t)) (B := 128 * 128)
      fun t ht => mul_bound (h1 _ (by omega)) (h2 _ (by omega))
    rw [vdot_eq (C := 4 * (128 * 128)) (by rw [e l hl]; exact_mod_cast hb) (by norm_num) h3 h4 hl, e l hl]
  rw [Finset.sum_congr rfl e2, Finset.sum_add_distrib, sum_group (fun t => a1 t * b1 t) 4 4, sum_group (fun t => a2 t * b2 t) 4 4]

theorem vdot_sum {a b : Nat → Int} (h1 : ∀ t < 16, |a t| ≤ 128) (h2 : ∀ t < 16, |b t| ≤ 128) :
    ∑ l ∈ Finset.range 4, vdot (fun _ => 0) a b l = ∑ t ∈ Finset.range 16, a t * b t := by
  rw [← sum_group (fun t => a t * b t) 4 4]
  refine Finset.sum_congr rfl fun l hl => ?_
  rw [vdot_eq (C := 0) (by simp) (by norm_num) h1 h2 (Finset.mem_range.mp hl), zero_add]

theorem vmull8_eq {o : Nat} {a b : Nat → Int} {l : Nat} (ha : |a (o + l)| ≤ 128) (hb : |b (o + l)| ≤ 128) :
    vmull8 o a b l = a (o + l) * b (o + l) := by
  have := prod_bd ha hb
  exact i16_eq (by omega) (by omega)

/-- The eight products of a widening multiply, added pairwise: two of them make 16. -/
theorem paddl_lane {a b : Nat → Int} (h1 : ∀ t < 16, |a t| ≤ 128) (h2 : ∀ t < 16, |b t| ≤ 128) {l : Nat} (hl : l < 4) :
    vpaddl (vmull8 0 a b) l = a (2 * l) * b (2 * l) + a (2 * l + 1) * b (2 * l + 1) ∧
    vpaddl (vmull8 8 a b) l = a (8 + 2 * l) * b (8 + 2 * l) + a (8 + (2 * l + 1)) * b (8 + (2 * l + 1)) := by
  unfold vpaddl
  rw [vmull8_eq (h1 _ (by omega)) (h2 _ (by omega)), vmull8_eq (h1 _ (by omega)) (h2 _ (by omega)),
    vmull8_eq (h1 _ (by omega)) (h2 _ (by omega)), vmull8_eq (h1 _ (by omega)) (h2 _ (by omega))]
  simp only [Nat.zero_add, and_self]

theorem paddl_pair {a b : Nat → Int} (h1 : ∀ t < 16, |a t| ≤ 128) (h2 : ∀ t < 16, |b t| ≤ 128) {l : Nat} (hl : l < 4) :
    vadd32 (vpaddl (vmull8 0 a b)) (vpaddl (vmull8 8 a b)) l =
      (a (2 * l) * b (2 * l) + a (2 * l + 1) * b (2 * l + 1)) + (a (8 + 2 * l) * b (8 + 2 * l) + a (8 + (2 * l + 1)) * b (8 + (2 * l + 1))) ∧
    |vadd32 (vpaddl (vmull8 0 a b)) (vpaddl (vmull8 8 a b)) l| ≤ 65536 := by
  have b1 := prod_bd (h1 (2 * l) (by omega)) (h2 (2 * l) (by omega))
  have b2 := prod_bd (h1 (2 * l + 1) (by omega)) (h2 (2 * l + 1) (by omega))
  have b3 := prod_bd (h1 (8 + 2 * l) (by omega)) (h2 (8 + 2 * l) (by omega))
  have b4 := prod_bd (h1 (8 + (2 * l + 1)) (by omega)) (h2 (8 + (2 * l + 1)) (by omega))
  have : vadd32 (vpaddl (vmull8 0 a b)) (vpaddl (vmull8 8 a b)) l =
      (a (2 * l) * b (2 * l) + a (2 * l + 1) * b (2 * l + 1)) + (a (8 + 2 * l) * b (8 + 2 * l) + a (8 + (2 * l + 1)) * b (8 + (2 * l + 1))) := by
    unfold vadd32
    rw [(paddl_lane h1 h2 hl).1, (paddl_lane h1 h2 hl).2]
    exact i32_eq (by omega) (by omega)
  rw [this]
  refine ⟨rfl, ?_⟩
  rw [abs_le]; constructor <;> omega

theorem paddl_sum {a b : Nat → Int} (h1 : ∀ t < 16, |a t| ≤ 128) (h2 : ∀ t < 16, |b t| ≤ 128) :
    ∑ l ∈ Finset.range 4, vadd32 (vpaddl (vmull8 0 a b)) (vpaddl (vmull8 8 a b)) l = ∑ t ∈ Finset.range 16, a t * b t := by
  rw [Finset.sum_congr rfl fun l hl => (paddl_pair h1 h2 (Finset.mem_range.mp hl)).1]
  simp only [Finset.sum_range_succ, Finset.sum_range_zero]
  norm_num
  ring

theorem vadd32_sum {n : Nat} {a b : Nat → Int} (h1 : ∀ l < n, |a l| ≤ 1000000000) (h2 : ∀ l < n, |b l| ≤ 1000000000) :
    ∑ l ∈ Finset.range n, vadd32 a b l = (∑ l ∈ Finset.range n, a l) + ∑ l ∈ Finset.range n, b l := by
  rw [← Finset.sum_add_distrib]
  refine Finset.sum_congr rfl fun l hl => ?_
  have hl := Finset.mem_range.mp hl
  have a1 := h1 l hl; have a2 := h2 l hl
  rw [abs_le] at a1 a2
  exact i32_eq (by omega) (by omega)

/-- Splitting a sum over 32 into its halves. -/
theorem sum32 (f : Nat → Int) :
    ∑ j ∈ Finset.range 32, f j = (∑ t ∈ Finset.range 16, f t) + ∑ t ∈ Finset.range 16, f (16 + t) := sum_split f 16 16

theorem neonDot_sum {xl xh y : Nat → Int} (h1 : ∀ t < 16, |xl t| ≤ 128) (h2 : ∀ t < 16, |xh t| ≤ 128) (h3 : ∀ t < 32, |y t| ≤ 128) :
    ∑ l ∈ Finset.range 4, neonDot xl xh y l = (∑ t ∈ Finset.range 16, xl t * y t) + ∑ t ∈ Finset.range 16, xh t * y (16 + t) :=
  vdot2_sum h1 (fun t ht => h3 t (by omega)) h2 (fun t ht => h3 _ (by omega))

theorem neonMull_sum {xl xh y : Nat → Int} (h1 : ∀ t < 16, |xl t| ≤ 128) (h2 : ∀ t < 16, |xh t| ≤ 128) (h3 : ∀ t < 32, |y t| ≤ 128) :
    ∑ l ∈ Finset.range 4, neonMull xl xh y l = (∑ t ∈ Finset.range 16, xl t * y t) + ∑ t ∈ Finset.range 16, xh t * y (16 + t) := by
  have g3 : ∀ t < 16, |y t| ≤ 128 := fun t ht => h3 t (by omega)
  have g4 : ∀ t < 16, |(fun t => y (16 + t)) t| ≤ 128 := fun t ht => h3 _ (by omega)
  unfold neonMull
  rw [vadd32_sum (fun l hl => (paddl_pair h1 g3 hl).2.trans (by norm_num)) (fun l hl => (paddl_pair h2 g4 hl).2.trans (by norm_num)),
    paddl_sum h1 g3, paddl_sum h2 g4]

theorem vdotMull_lane {a b : Nat → Int} (h1 : ∀ t < 16, |a t| ≤ 128) (h2 : ∀ t < 16, |b t| ≤ 128) {l : Nat} (hl : l < 4) :
    vdotMull (fun _ => 0) a b l = vadd32 (vpaddl (vmull8 0 a b)) (vpaddl (vmull8 8 a b)) l := by
  have h := (paddl_pair h1 h2 hl).2
  rw [abs_le] at h
  show i32 (0 + vadd32 (vpaddl (vmull8 0 a b)) (vpaddl (vmull8 8 a b)) l) = _
  rw [zero_add]
  exact i32_eq (by omega) (by omega)

/-! ### Matrix multiply -/

theorem vmmla_eq {acc a b : Nat → Int} {l : Nat} {C : Int} (hC : |acc l| ≤ C) (hc : C ≤ 1000000000)
    (ha : ∀ t < 16, |a t| ≤ 128) (hb : ∀ t < 16, |b t| ≤ 128) (hl : l < 4) :
    vmmla acc a b l = acc l + ∑ t ∈ Finset.range 8, a (8 * (l / 2) + t) * b (8 * (l % 2) + t) ∧
      |vmmla acc a b l| ≤ C + 131072 := by
  have hb := sum_bound (n := 8) (f := fun t => a (8 * (l / 2) + t) * b (8 * (l % 2) + t)) (B := 128 * 128)
    fun t ht => mul_bound (ha _ (by omega)) (hb _ (by omega))
  rw [abs_le] at hb hC
  push_cast at hb
  have e : vmmla acc a b l = acc l + ∑ t ∈ Finset.range 8, a (8 * (l / 2) + t) * b (8 * (l % 2) + t) :=
    i32_eq (by omega) (by omega)
  refine ⟨e, ?_⟩
  rw [e, abs_le]; constructor <;> omega

theorem zip64_bd {h : Bool} {a b : Nat → Int} (ha : ∀ t < 16, |a t| ≤ 128) (hb : ∀ t < 16, |b t| ≤ 128) :
    ∀ t < 16, |zip64 h a b t| ≤ 128 := by
  intro t ht
  unfold zip64
  cases h <;> simp only [Bool.false_eq_true, if_false, if_true] <;> split
  · exact ha _ (by omega)
  · exact hb _ (by omega)
  · exact ha _ (by omega)
  · exact hb _ (by omega)

theorem zip64_row {h : Bool} {a b : Nat → Int} {r t : Nat} (hr : r < 2) (ht : t < 8) :
    zip64 h a b (8 * r + t) = (if r = 0 then a else b) ((if h then 8 else 0) + t) := by
  unfold zip64
  have : r = 0 ∨ r = 1 := by omega
  rcases this with rfl | rfl
  · simp [ht]
  · simp [show ¬ 8 * 1 + t < 8 by omega, show 8 * 1 + t - 8 = t by omega]

/-- Lane `2r + c` is the dot product of row `r` and column `c`. -/
theorem mmla_lane {x0l x0h x1l x1h y0 y1 : Nat → Int} (h1 : ∀ t < 16, |x0l t| ≤ 128) (h2 : ∀ t < 16, |x0h t| ≤ 128)
    (h3 : ∀ t < 16, |x1l t| ≤ 128) (h4 : ∀ t < 16, |x1h t| ≤ 128) (h5 : ∀ t < 32, |y0 t| ≤ 128) (h6 : ∀ t < 32, |y1 t| ≤ 128)
    {r c : Nat} (hr : r < 2) (hc : c < 2) :
    mmla x0l x0h x1l x1h y0 y1 (2 * r + c) =
      (∑ t ∈ Finset.range 16, (if r = 0 then x0l else x1l) t * (if c = 0 then y0 else y1) t) +
      ∑ t ∈ Finset.range 16, (if r = 0 then x0h else x1h) t * (if c = 0 then y0 else y1) (16 + t) := by
  have g5 : ∀ t < 16, |y0 t| ≤ 128 := fun t ht => h5 t (by omega)
  have g6 : ∀ t < 16, |y1 t| ≤ 128 := fun t ht => h6 t (by omega)
  have g7 : ∀ t < 16, |(fun t => y0 (16 + t)) t| ≤ 128 := fun t ht => h5 _ (by omega)
  have g8 : ∀ t < 16, |(fun t => y1 (16 + t)) t| ≤ 128 := fun t ht => h6 _ (by omega)
  have hl : 2 * r + c < 4 := by omega
  have e1 : (2 * r + c) / 2 = r := by omega
  have e2 : (2 * r + c) % 2 = c := by omega
  unfold mmla
  obtain ⟨a1, b1⟩ := vmmla_eq (acc := fun _ => 0) (C := 0) (by simp) (by norm_num) (zip64_bd (h := false) h1 h3) (zip64_bd (h := false) g5 g6) hl
  obtain ⟨a2, b2⟩ := vmmla_eq b1 (by norm_num) (zip64_bd (h := true) h1 h3) (zip64_bd (h := true) g5 g6) hl
  obtain ⟨a3, b3⟩ := vmmla_eq b2 (by norm_num) (zip64_bd (h := false) h2 h4) (zip64_bd (h := false) g7 g8) hl
  obtain ⟨a4, b4⟩ := vmmla_eq b3 (by norm_num) (zip64_bd (h := true) h2 h4) (zip64_bd (h := true) g7 g8) hl
  rw [a4, a3, a2, a1, e1, e2, zero_add, sum_split _ 8 8, sum_split _ 8 8]
  have key : ∀ (h : Bool) (a b a' b' : Nat → Int), ∑ t ∈ Finset.range 8, zip64 h a b (8 * r + t) * zip64 h a' b' (8 * c + t) =
      ∑ t ∈ Finset.range 8, (if r = 0 then a else b) ((if h then 8 else 0) + t) * (if c = 0 then a' else b') ((if h then 8 else 0) + t) := by
    intro h a b a' b'
    refine Finset.sum_congr rfl fun t ht => ?_
    rw [zip64_row hr (Finset.mem_range.mp ht), zip64_row hc (Finset.mem_range.mp ht)]
  rw [key, key, key, key]
  have hy : ∀ t, (if c = 0 then fun t => y0 (16 + t) else fun t => y1 (16 + t)) t = (if c = 0 then y0 else y1) (16 + t) := by
    intro t; split <;> rfl
  simp only [Bool.false_eq_true, if_false, if_true, Nat.zero_add, hy, add_assoc]

end Verif.Quant
