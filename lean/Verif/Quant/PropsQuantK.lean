import Verif.Quant.PropsQuant
import Verif.Quant.FitX

/-! C130: quantisation to the K formats. -/

namespace Verif.Quant

/-- q8_K rows. -/
theorem C130_quantise_q8_K {rnd : ℝ → Int} (hr : Rounds rnd) (junk : Nat → Int) (k : Nat) (x : Nat → ℝ) :
    (quantQ8K rnd junk k x).length = k / 256 ∧
      ∀ i < k / 256, ∃ b, (quantQ8K rnd junk k x)[i]? = some b ∧ IsQ8K (fun j => x (i * 256 + j)) b := by
  unfold quantQ8K
  rw [byPtr_eq]
  exact ⟨byIndex_length .., fun i hi => ⟨_, byIndex_get _ _ _ hi, q8KBlock_is hr junk _⟩⟩

/-! ### q4_K: packing of scales and codes -/

theorem packScales_get (ls lm : Nat → Nat) {j : Nat} (hj : j < 12) :
    packScales ls lm j = if j < 4 then (ls j ||| ((ls (j + 4) >>> 4) <<< 6)) % 256
      else if j < 8 then (lm (j - 4) ||| ((lm j >>> 4) <<< 6)) % 256
      else (ls (j - 4) &&& 0xF) ||| ((lm (j - 4) &&& 0xF) <<< 4) := by
  interval_cases j <;> simp [packScales, List.range, List.range.loop, Function.update]

theorem packScales_lt {ls lm : Nat → Nat} (j : Nat) (hj : j < 12) : packScales ls lm j < 256 := by
  rw [packScales_get _ _ hj]
  split
  · exact Nat.mod_lt _ (by norm_num)
  · split
    · exact Nat.mod_lt _ (by norm_num)
    · rw [and15, and15, or_shl4 _ (by omega)]; omega

/-- The 6-bit scales and minima survive the packing into 12 bytes. -/
theorem packScales_round {ls lm : Nat → Nat} (h1 : ∀ j < 8, ls j < 64) (h2 : ∀ j < 8, lm j < 64) (b : Q4K)
    (hb : b.scales = packScales ls lm) {g : Nat} (hg : g < 8) : b.scale g = ls g ∧ b.min g = lm g := by
  have a1 := h1 g hg; have a2 := h2 g hg
  unfold Q4K.scale Q4K.min
  rw [hb]
  by_cases h : g < 4
  · rw [if_pos h, if_pos h, packScales_get _ _ (by omega), packScales_get _ _ (by omega), if_pos h,
      if_neg (by omega), if_pos (by omega), Nat.add_sub_cancel, or_shl6 _ a1, or_shl6 _ a2]
    omega
  · have b1 := h1 (g - 4) (by omega); have b2 := h2 (g - 4) (by omega)
    rw [if_neg h, if_neg h, packScales_get _ _ (by omega : g + 4 < 12), packScales_get _ _ (by omega : g - 4 < 12),
      packScales_get _ _ (by omega : g < 12), if_neg (by omega), if_neg (by omega), if_pos (by omega), if_neg h,
      if_pos (by omega), Nat.add_sub_cancel, Nat.sub_add_cancel (by omega), or_shl6 _ b1, or_shl6 _ b2, and15, and15,
      or_shl4 _ (by omega), shr4, shr4]
    omega

theorem maxFold_spec (n : Nat) (f : Nat → ℝ) (h0 : ∀ j < n, 0 ≤ f j) :
    let m := (List.range n).foldl (fun m j => if f j > m then f j else m) 0
    (∀ j < n, f j ≤ m) ∧ 0 ≤ m ∧ (m = 0 ∨ ∃ j < n, f j = m) := by
  simp only
  have key : ∀ k ≤ n, (∀ j < k, f j ≤ (List.range k).foldl (fun m j => if f j > m then f j else m) 0) ∧
      0 ≤ (List.range k).foldl (fun m j => if f j > m then f j else m) 0 ∧
      ((List.range k).foldl (fun m j => if f j > m then f j else m) 0 = 0 ∨
        ∃ j < k, f j = (List.range k).foldl (fun m j => if f j > m then f j else m) 0) := by
    intro k
    induction k with
    | zero => intro _; simp
    | succ k ih =>
      intro hk
      obtain ⟨i1, i2, i3⟩ := ih (by omega)
      rw [List.range_succ, List.foldl_append]
      obtain ⟨F, hF⟩ : ∃ F, F = (List.range k).foldl (fun m j => if f j > m then f j else m) 0 := ⟨_, rfl⟩
      rw [← hF] at i1 i2 i3 ⊢
      simp only [List.foldl_cons, List.foldl_nil]
      by_cases h : f k > F
      · rw [if_pos h]
        refine ⟨fun j hj => ?_, by linarith, Or.inr ⟨k, by omega, rfl⟩⟩
        rcases Nat.lt_succ_iff_lt_or_eq.mp hj with h' | h'
        · exact (i1 j h').trans h.le
        · rw [h']
      · rw [if_neg h]
        refine ⟨fun j hj => ?_, i2, ?_⟩
        · rcases Nat.lt_succ_iff_lt_or_eq.mp hj with h' | h'
          · exact i1 j h'
          · rw [h']; exact not_lt.mp h
        · rcases i3 with h' | ⟨j, hj, he⟩
          · exact Or.inl h'
          · exact Or.inr ⟨j, by omega, he⟩
  exact key n le_rfl

/-- The 6-bit code of a fitted value: closest multiple of `S/63`. -/
theorem to6_best {rnd : ℝ → Int} (hr : Rounds rnd) {S s : ℝ} (h0 : 0 ≤ s) (hS : s ≤ S) :
    Best s (fun c => S / 63 * c) 0 63 (to6 (rnd ((if S > 0 then 63 / S else 0) * s))) ∧
      to6 (rnd ((if S > 0 then 63 / S else 0) * s)) < 64 := by
  refine ⟨?_, by unfold to6; omega⟩
  by_cases hp : S > 0
  · rw [if_pos hp]
    have hy : 63 / S * s = (s + 0) / (S / 63) := by field_simp; ring
    have hyn : 0 ≤ 63 / S * s := by positivity
    have hy63 : 63 / S * s ≤ 63 := by rw [div_mul_eq_mul_div, div_le_iff₀ hp]; nlinarith
    have hb := best_of (x := s) (d := S / 63) (m := 0) (r := rnd (63 / S * s)) (lo := 0) (hi := 63) (by positivity)
      (by rw [← hy]; exact hr _) (by norm_num)
    have hrng := hr.range (x := 63 / S * s) (n := 63) (by rw [abs_of_nonneg hyn]; exact_mod_cast hy63)
    have hlo : 0 ≤ rnd (63 / S * s) := by
      have := hr.mono hyn; rw [hr.zero] at this; exact this
    have e : max 0 (min 63 (rnd (63 / S * s))) = ((to6 (rnd (63 / S * s)) : Nat) : Int) := by
      unfold to6
      have e2 : (rnd (63 / S * s)).emod 256 = rnd (63 / S * s) := Int.emod_eq_of_lt hlo (by push_cast at hrng; omega)
      rw [e2]
      push_cast at hrng
      omega
    rw [e] at hb
    exact hb.congr fun c => by ring
  · rw [if_neg hp, zero_mul, hr.zero]
    have : s = 0 := le_antisymm (hS.trans (not_lt.mp hp)) h0
    refine ⟨by unfold to6; omega, by unfold to6; omega, fun c h1 h2 => ?_⟩
    have e6 : to6 0 = 0 := by decide
    rw [this, e6]; simp only [Nat.cast_zero, Int.cast_zero, mul_zero, sub_zero, abs_zero]; exact abs_nonneg _

/-- Block content of q4_K: the fitted scale `s g`, offset `m g` and codes `c g` of each group of 32, how good that
fit is, how scales and offsets are coded in 6 bits, and how the elements are then coded in 4 bits. -/
def IsQ4K (P : Plat) (sq : ℝ → ℝ) (x : Nat → ℝ) (b : Q4K) : Prop :=
  b.Bytes ∧ ∃ (s m : Nat → ℝ) (c : Nat → Nat → Nat) (S M : ℝ),
    (∀ g < 8, 0 ≤ s g ∧ s g ≤ S ∧ 0 ≤ m g ∧ m g ≤ M ∧
      ∀ lo hi, lo ≤ 0 → (∀ l < 32, lo ≤ x (32 * g + l) ∧ x (32 * g + l) ≤ hi) →
        let w := fun l => sq ((∑ l ∈ Finset.range 32, x (32 * g + l) * x (32 * g + l)) / 32) + |x (32 * g + l)|
        ∑ l ∈ Finset.range 32, w l * (s g * c g l - m g - x (32 * g + l)) ^ 2 ≤
          ∑ l ∈ Finset.range 32, w l * ((hi - lo) / 15 / 2) ^ 2) ∧
    (S = 0 ∨ ∃ g < 8, s g = S) ∧ (M = 0 ∨ ∃ g < 8, m g = M) ∧
    b.d = P.store (S / 63) ∧ b.dmin = P.store (M / 63) ∧
    (∀ g < 8, Best (s g) (fun c => S / 63 * c) 0 63 (b.scale g) ∧ Best (m g) (fun c => M / 63 * c) 0 63 (b.min g)) ∧
    ∀ j < 256, b.code j < 16 ∧
      (P.load b.d * b.scale (j / 32) = 0 → b.code j = c (j / 32) (j % 32)) ∧
      (P.load b.d * b.scale (j / 32) ≠ 0 →
        Best (x j) (fun c => P.load b.d * b.scale (j / 32) * c - P.load b.dmin * b.min (j / 32)) 0 15 (b.code j))

theorem clampTo_eq (n : Nat) (z : Int) : ((clampTo n z : Nat) : Int) = max 0 (min (n : Int) z) := by unfold clampTo; omega

/-- Reading nibbles back. -/
theorem code_pack (L : Nat → Nat) (hL : ∀ t < 256, L t < 16) (b : Q4K)
    (hb : b.qs = fun t => (L (64 * (t / 32) + t % 32) ||| (L (64 * (t / 32) + t % 32 + 32) <<< 4)) % 256) {j : Nat} (hj : j < 256) :
    b.code j = L j := by
  unfold Q4K.code
  rw [hb]
  simp only
  have e1 : (32 * (j / 64) + j % 32) / 32 = j / 64 := by omega
  have e2 : (32 * (j / 64) + j % 32) % 32 = j % 32 := by omega
  rw [e1, e2]
  have h1 := hL (64 * (j / 64) + j % 32) (by omega)
  have h2 := hL (64 * (j / 64) + j % 32 + 32) (by omega)
  rw [or_shl4 _ h1]
  by_cases h : j % 64 < 32
  · rw [if_pos h]
    have : 64 * (j / 64) + j % 32 = j := by omega
    rw [this] at h1 h2 ⊢; omega
  · rw [if_neg h]
    have : 64 * (j / 64) + j % 32 + 32 = j := by omega
    rw [this] at h2 ⊢; omega

theorem q4KBlock_is (P : Plat) {rnd : ℝ → Int} (hr : Rounds rnd) {sq : ℝ → ℝ} (hs : ∀ y, 0 ≤ sq y) (x : Nat → ℝ) :
    IsQ4K P sq x (q4KBlock P rnd sq x) := by
  obtain ⟨r, hrd⟩ : ∃ r : Nat → ℝ × ℝ × (Nat → Nat), r = fun j => qkx2 rnd 32 15 (fun l => x (32 * j + l))
    (fun l => sq ((∑ l ∈ Finset.range 32, x (32 * j + l) * x (32 * j + l)) / 32) + |x (32 * j + l)|) (-1) 0.1 20 := ⟨_, rfl⟩
  obtain ⟨S, hS⟩ : ∃ S, S = (List.range 8).foldl (fun m j => if (r j).1 > m then (r j).1 else m) 0 := ⟨_, rfl⟩
  obtain ⟨M, hM⟩ : ∃ M, M = (List.range 8).foldl (fun m j => if (r j).2.1 > m then (r j).2.1 else m) 0 := ⟨_, rfl⟩
  obtain ⟨ls, hls⟩ : ∃ ls : Nat → Nat, ls = fun j => to6 (rnd ((if S > 0 then 63 / S else 0) * (r j).1)) := ⟨_, rfl⟩
  obtain ⟨lm, hlm⟩ : ∃ lm : Nat → Nat, lm = fun j => to6 (rnd ((if M > 0 then 63 / M else 0) * (r j).2.1)) := ⟨_, rfl⟩
  obtain ⟨L, hL⟩ : ∃ L : Nat → Nat, L = fun t =>
    if P.load (P.store (S / 63)) * ((getScaleMin (t / 32) (packScales ls lm)).1 : ℝ) = 0 then (r (t / 32)).2.2 (t % 32)
    else clampTo 15 (rnd ((x (32 * (t / 32) + t % 32) + P.load (P.store (M / 63)) * ((getScaleMin (t / 32) (packScales ls lm)).2 : ℝ)) /
      (P.load (P.store (S / 63)) * ((getScaleMin (t / 32) (packScales ls lm)).1 : ℝ)))) := ⟨_, rfl⟩
  have hq : q4KBlock P rnd sq x = ⟨P.store (S / 63), P.store (M / 63), packScales ls lm,
      fun t => (L (64 * (t / 32) + t % 32) ||| (L (64 * (t / 32) + t % 32 + 32) <<< 4)) % 256⟩ := by
    rw [hL, hls, hlm, hS, hM, hrd]; rfl
  have hfit : ∀ j, (∀ i, (r j).2.2 i ≤ 15) ∧ 0 ≤ (r j).1 ∧ 0 ≤ (r j).2.1 ∧ ∀ lo hi, lo ≤ 0 →
      (∀ l < 32, lo ≤ x (32 * j + l) ∧ x (32 * j + l) ≤ hi) →
      ∑ l ∈ Finset.range 32, (sq ((∑ l ∈ Finset.range 32, x (32 * j + l) * x (32 * j + l)) / 32) + |x (32 * j + l)|) *
        ((r j).1 * (r j).2.2 l - (r j).2.1 - x (32 * j + l)) ^ 2 ≤
      ∑ l ∈ Finset.range 32, (sq ((∑ l ∈ Finset.range 32, x (32 * j + l) * x (32 * j + l)) / 32) + |x (32 * j + l)|) *
        ((hi - lo) / (15 : Nat) / 2) ^ 2 := by
    intro j
    have := qkx2_fit hr (n := 32) (nmax := 15) (by norm_num) (by norm_num) (x := fun l => x (32 * j + l))
      (w := fun l => sq ((∑ l ∈ Finset.range 32, x (32 * j + l) * x (32 * j + l)) / 32) + |x (32 * j + l)|)
      (fun i _ => add_nonneg (hs _) (abs_nonneg _)) (rmin := -1) (rdelta := 0.1) (by norm_num) (by norm_num) 20
    rw [hrd]; exact this
  rw [hq]
  obtain ⟨S1, S2, S3⟩ := maxFold_spec 8 (fun j => (r j).1) fun j _ => (hfit j).2.1
  obtain ⟨M1, M2, M3⟩ := maxFold_spec 8 (fun j => (r j).2.1) fun j _ => (hfit j).2.2.1
  rw [← hS] at S1 S2 S3
  rw [← hM] at M1 M2 M3
  have bs : ∀ g < 8, Best (r g).1 (fun c => S / 63 * c) 0 63 (ls g) ∧ ls g < 64 := fun g hg => by
    rw [hls]; exact to6_best hr (hfit g).2.1 (S1 g hg)
  have bm : ∀ g < 8, Best (r g).2.1 (fun c => M / 63 * c) 0 63 (lm g) ∧ lm g < 64 := fun g hg => by
    rw [hlm]; exact to6_best hr (hfit g).2.2.1 (M1 g hg)
  obtain ⟨b, hb⟩ : ∃ b : Q4K, b = ⟨P.store (S / 63), P.store (M / 63), packScales ls lm,
      fun t => (L (64 * (t / 32) + t % 32) ||| (L (64 * (t / 32) + t % 32 + 32) <<< 4)) % 256⟩ := ⟨_, rfl⟩
  rw [← hb]
  have hB : b.Bytes := by
    refine ⟨fun j _ => ?_, fun j hj => ?_⟩
    · rw [hb]; exact Nat.mod_lt _ (by norm_num)
    · rw [hb]; exact packScales_lt j hj
  have hsc : b.scales = packScales ls lm := by rw [hb]
  have hd : b.d = P.store (S / 63) := by rw [hb]
  have hdm : b.dmin = P.store (M / 63) := by rw [hb]
  have hround : ∀ g < 8, b.scale g = ls g ∧ b.min g = lm g := fun g hg =>
    packScales_round (fun j hj => (bs j hj).2) (fun j hj => (bm j hj).2) b hsc hg
  have hLv : ∀ t < 256, L t = if P.load b.d * (b.scale (t / 32) : ℝ) = 0 then (r (t / 32)).2.2 (t % 32)
      else clampTo 15 (rnd ((x t + P.load b.dmin * (b.min (t / 32) : ℝ)) / (P.load b.d * (b.scale (t / 32) : ℝ)))) := by
    intro t ht
    have e := getScaleMin_eq hB (g := t / 32) (by omega)
    rw [hsc] at e
    have e2 : 32 * (t / 32) + t % 32 = t := by omega
    rw [hL]; simp only [e, e2, hd, hdm]
  have hLlt : ∀ t < 256, L t < 16 := by
    intro t ht
    rw [hLv t ht]
    split
    · have := (hfit (t / 32)).1 (t % 32); omega
    · have := clampTo_eq 15 (rnd ((x t + P.load b.dmin * (b.min (t / 32) : ℝ)) / (P.load b.d * (b.scale (t / 32) : ℝ)))); omega
  have hcode : ∀ j < 256, b.code j = L j := fun j hj => code_pack L hLlt b (by rw [hb]) hj
  refine ⟨hB, fun g => (r g).1, fun g => (r g).2.1, fun g => (r g).2.2, S, M, fun g hg => ?_, S3, M3, hd, hdm, fun g hg => ?_, fun j hj => ?_⟩
  · refine ⟨(hfit g).2.1, S1 g hg, (hfit g).2.2.1, M1 g hg, fun lo hi h0 h => ?_⟩
    have := (hfit g).2.2.2 lo hi h0 h
    simpa using this
  · rw [(hround g hg).1, (hround g hg).2]; exact ⟨(bs g hg).1, (bm g hg).1⟩
  · rw [hcode j hj]
    refine ⟨hLlt j hj, fun h => by rw [hLv j hj, if_pos h], fun h => ?_⟩
    rw [hLv j hj, if_neg h, clampTo_eq]
    exact best_of h (hr _) (by norm_num)

/-- q4_K rows. -/
theorem C130_quantise_q4_K (P : Plat) {rnd : ℝ → Int} (hr : Rounds rnd) {sq : ℝ → ℝ} (hs : ∀ y, 0 ≤ sq y) (k : Nat) (x : Nat → ℝ) :
    (quantQ4K P rnd sq k x).length = k / 256 ∧
      ∀ i < k / 256, ∃ b, (quantQ4K P rnd sq k x)[i]? = some b ∧ IsQ4K P sq (fun j => x (i * 256 + j)) b := by
  unfold quantQ4K
  rw [byPtr_eq]
  exact ⟨byIndex_length .., fun i hi => ⟨_, byIndex_get _ _ _ hi, q4KBlock_is P hr hs _⟩⟩

/-! ### q6_K -/

/-- Block content of q6_K: fitted scale `s g` and codes `c g` per group of 16. -/
def IsQ6K (P : Plat) (x : Nat → ℝ) (b : Q6K) : Prop :=
  b.Bytes ∧ ∃ (s : Nat → ℝ) (c : Nat → Nat → Int) (d : ℝ),
    (∀ g < 16, (∀ l < 16, -32 ≤ c g l ∧ c g l ≤ 31) ∧
      ∃ a, IsAmax 16 (fun l => x (16 * g + l)) a ∧
        ((a < 1e-30 ∧ s g = 0) ∨
          ∑ l ∈ Finset.range 16, x (16 * g + l) ^ 2 * (s g * c g l - x (16 * g + l)) ^ 2 ≤
            ∑ l ∈ Finset.range 16, x (16 * g + l) ^ 2 * (a / 32) ^ 2)) ∧
    (∃ A, IsAmax 16 s A ∧ |d| = A / 128) ∧ b.d = P.store d ∧
    (∀ g < 16, Best (s g) (fun c => d * c) (-128) 127 (b.scales g)) ∧
    ∀ j < 256, -32 ≤ b.code j ∧ b.code j ≤ 31 ∧
      (P.load b.d * b.scales (j / 16) ≠ 0 →
        Best (x j) (fun c => P.load b.d * b.scales (j / 16) * c) (-32) 31 (b.code j))

/-- Reading six-bit codes back. -/
theorem code_pack6 (L : Nat → Nat) (hL : ∀ t < 256, L t < 64) (b : Q6K)
    (hl : b.ql = fun t => if t % 64 < 32 then (L (128 * (t / 64) + t % 32) &&& 0xF) ||| ((L (128 * (t / 64) + t % 32 + 64) &&& 0xF) <<< 4)
      else (L (128 * (t / 64) + t % 32 + 32) &&& 0xF) ||| ((L (128 * (t / 64) + t % 32 + 96) &&& 0xF) <<< 4))
    (hh : b.qh = fun t => ((L (128 * (t / 32) + t % 32) >>> 4) ||| ((L (128 * (t / 32) + t % 32 + 32) >>> 4) <<< 2) |||
      ((L (128 * (t / 32) + t % 32 + 64) >>> 4) <<< 4) ||| ((L (128 * (t / 32) + t % 32 + 96) >>> 4) <<< 6)) % 256) :
    (∀ t < 128, b.ql t < 256) ∧ (∀ t < 64, b.qh t < 256) ∧ ∀ j < 256, b.code j = (L j : Int) - 32 := by
  have hqh : ∀ t < 64, b.qh t = L (128 * (t / 32) + t % 32) / 16 + 4 * (L (128 * (t / 32) + t % 32 + 32) / 16) +
      16 * (L (128 * (t / 32) + t % 32 + 64) / 16) + 64 * (L (128 * (t / 32) + t % 32 + 96) / 16) := by
    intro t ht
    have h1 := hL (128 * (t / 32) + t % 32) (by omega)
    have h2 := hL (128 * (t / 32) + t % 32 + 32) (by omega)
    have h3 := hL (128 * (t / 32) + t % 32 + 64) (by omega)
    have h4 := hL (128 * (t / 32) + t % 32 + 96) (by omega)
    rw [hh]
    simp only [shr4]
    rw [or_shl2 _ (by omega), or_shl4 _ (by omega), or_shl6 _ (by omega)]
    omega
  refine ⟨fun t ht => ?_, fun t ht => ?_, fun j hj => ?_⟩
  · rw [hl]; simp only [and15]
    split
    · rw [or_shl4 _ (by omega)]; omega
    · rw [or_shl4 _ (by omega)]; omega
  · rw [hh]; exact Nat.mod_lt _ (by norm_num)
  · have hLj := hL j hj
    unfold Q6K.code
    simp only
    rw [hqh _ (by omega)]
    have e1 : (32 * (j / 128) + j % 32) / 32 = j / 128 := by omega
    have e2 : (32 * (j / 128) + j % 32) % 32 = j % 32 := by omega
    rw [e1, e2]
    have h1 := hL (128 * (j / 128) + j % 32) (by omega)
    have h2 := hL (128 * (j / 128) + j % 32 + 32) (by omega)
    have h3 := hL (128 * (j / 128) + j % 32 + 64) (by omega)
    have h4 := hL (128 * (j / 128) + j % 32 + 96) (by omega)
    have hc : j % 128 / 32 = 0 ∨ j % 128 / 32 = 1 ∨ j % 128 / 32 = 2 ∨ j % 128 / 32 = 3 := by omega
    rw [hl]
    simp only [and15]
    rcases hc with hc | hc | hc | hc <;> rw [hc]
    · have e : 128 * (j / 128) + j % 32 = j := by omega
      rw [e] at h1 h2 h3 h4 ⊢
      have t1 : (64 * (j / 128) + 32 * (0 % 2) + j % 32) % 64 < 32 := by omega
      have t2 : (64 * (j / 128) + 32 * (0 % 2) + j % 32) / 64 = j / 128 := by omega
      have t3 : (64 * (j / 128) + 32 * (0 % 2) + j % 32) % 32 = j % 32 := by omega
      rw [if_pos t1, t2, t3, e, or_shl4 _ (by omega)]
      norm_num
      omega
    · have e : 128 * (j / 128) + j % 32 + 32 = j := by omega
      have t1 : ¬ (64 * (j / 128) + 32 * (1 % 2) + j % 32) % 64 < 32 := by omega
      have t2 : (64 * (j / 128) + 32 * (1 % 2) + j % 32) / 64 = j / 128 := by omega
      have t3 : (64 * (j / 128) + 32 * (1 % 2) + j % 32) % 32 = j % 32 := by omega
      rw [if_neg t1, t2, t3, e, or_shl4 _ (by omega)]
      norm_num
      omega
    · have e : 128 * (j / 128) + j % 32 + 64 = j := by omega
      have t1 : (64 * (j / 128) + 32 * (2 % 2) + j % 32) % 64 < 32 := by omega
      have t2 : (64 * (j / 128) + 32 * (2 % 2) + j % 32) / 64 = j / 128 := by omega
      have t3 : (64 * (j / 128) + 32 * (2 % 2) + j % 32) % 32 = j % 32 := by omega
      rw [if_pos t1, t2, t3, e, or_shl4 _ (by omega)]
      norm_num
      omega
    · have e : 128 * (j / 128) + j % 32 + 96 = j := by omega
      have t1 : ¬ (64 * (j / 128) + 32 * (3 % 2) + j % 32) % 64 < 32 := by omega
      have t2 : (64 * (j / 128) + 32 * (3 % 2) + j % 32) / 64 = j / 128 := by omega
      have t3 : (64 * (j / 128) + 32 * (3 % 2) + j % 32) % 32 = j % 32 := by omega
      rw [if_neg t1, t2, t3, e, or_shl4 _ (by omega)]
      norm_num
      omega

theorem q6KBlock_is (P : Plat) {rnd : ℝ → Int} (hr : Rounds rnd) (x : Nat → ℝ) : IsQ6K P x (q6KBlock P rnd x) := by
  obtain ⟨r, hrd⟩ : ∃ r : Nat → ℝ × (Nat → Int), r = fun ib => qx rnd 16 32 (fun j => x (16 * ib + j)) := ⟨_, rfl⟩
  obtain ⟨m, hmd⟩ : ∃ m, m = (maxLoop 16 (fun ib => (r ib).1)).2 := ⟨_, rfl⟩
  obtain ⟨A, hA⟩ : ∃ A, A = (maxLoop 16 (fun ib => (r ib).1)).1 := ⟨_, rfl⟩
  obtain ⟨hAm, hmA⟩ := maxLoop_spec (n := 16) (by norm_num) (fun ib => (r ib).1)
  rw [← hmd, ← hA] at hmA
  rw [← hA] at hAm
  have hfit : ∀ g, ∃ c : Nat → Int, (∀ l < 16, -32 ≤ c l ∧ c l ≤ 31) ∧ (∀ l < 16, 0 ≤ (r g).2 l ∧ (r g).2 l ≤ 63) ∧
      ∃ a, IsAmax 16 (fun l => x (16 * g + l)) a ∧ ((a < 1e-30 ∧ (r g).1 = 0) ∨
          ∑ l ∈ Finset.range 16, x (16 * g + l) ^ 2 * ((r g).1 * c l - x (16 * g + l)) ^ 2 ≤
            ∑ l ∈ Finset.range 16, x (16 * g + l) ^ 2 * (a / 32) ^ 2) := by
    intro g
    rw [hrd]
    obtain ⟨c, h1, h2, a, h3, h4⟩ := qx_fit hr (n := 16) (nmax := 32) (by norm_num) (by norm_num) (fun l => x (16 * g + l))
    exact ⟨c, fun l hl => by have := h1 l hl; push_cast at this; omega, fun l hl => by have := h2 l hl; push_cast at this; exact this,
      a, h3, by simpa using h4⟩
  choose c hc1 hc2 hc3 using hfit
  obtain ⟨sc, hsc⟩ : ∃ sc : Nat → Int, sc = fun ib => i8 (min 127 (rnd (-128 / m * (r ib).1))) := ⟨_, rfl⟩
  obtain ⟨bd, hbd⟩ : ∃ bd, bd = P.store (1 / (-128 / m)) := ⟨_, rfl⟩
  obtain ⟨L, hL⟩ : ∃ L : Nat → Nat, L = fun t => if P.load bd * (sc (t / 16) : ℝ) = 0 then ((r (t / 16)).2 (t % 16)).toNat
      else (max (-32) (min 31 (rnd (x (16 * (t / 16) + t % 16) / (P.load bd * (sc (t / 16) : ℝ))))) + 32).toNat := ⟨_, rfl⟩
  obtain ⟨b, hb⟩ : ∃ b, b = q6KBlock P rnd x := ⟨_, rfl⟩
  have hq : b = if A = 0 then ⟨fun _ => 0, fun _ => 0, fun _ => 0, P.store 0⟩ else
      ⟨fun t => if t % 64 < 32 then (L (128 * (t / 64) + t % 32) &&& 0xF) ||| ((L (128 * (t / 64) + t % 32 + 64) &&& 0xF) <<< 4)
      else (L (128 * (t / 64) + t % 32 + 32) &&& 0xF) ||| ((L (128 * (t / 64) + t % 32 + 96) &&& 0xF) <<< 4),
      fun t => ((L (128 * (t / 32) + t % 32) >>> 4) ||| ((L (128 * (t / 32) + t % 32 + 32) >>> 4) <<< 2) |||
      ((L (128 * (t / 32) + t % 32 + 64) >>> 4) <<< 4) ||| ((L (128 * (t / 32) + t % 32 + 96) >>> 4) <<< 6)) % 256, sc, bd⟩ := by
    rw [hb, hL, hbd, hsc, hA, hmd, hrd]; rfl
  rw [← hb]
  by_cases h0 : A = 0
  · rw [if_pos h0] at hq
    have hcode : ∀ j < 256, b.code j = -32 := by
      intro j _
      rw [hq]; unfold Q6K.code; simp
    have hs0 : ∀ g < 16, (r g).1 = 0 := fun g hg => by
      have := hAm.1 g hg
      rw [h0] at this
      exact abs_eq_zero.mp (le_antisymm this (abs_nonneg _))
    refine ⟨⟨fun j _ => by rw [hq]; norm_num, fun j _ => by rw [hq]; norm_num, fun j _ => by rw [hq]; norm_num⟩,
      fun g => (r g).1, c, 0, fun g hg => ⟨hc1 g, hc3 g⟩, ⟨A, hAm, by simp [h0]⟩, by rw [hq], fun g hg => ?_, fun j hj => ?_⟩
    · refine ⟨by rw [hq]; norm_num, by rw [hq]; norm_num, fun c _ _ => by simp⟩
    · rw [hcode j hj]
      refine ⟨by norm_num, by norm_num, fun h => absurd ?_ h⟩
      rw [hq]; simp
  rw [if_neg h0] at hq
  have hAp : 0 < A := lt_of_le_of_ne hAm.nonneg (Ne.symm h0)
  have hm0 : m ≠ 0 := by intro h; rw [h, abs_zero] at hmA; exact h0 hmA.symm
  have hsb : ∀ g < 16, -128 ≤ sc g ∧ sc g ≤ 127 ∧ Best (r g).1 (fun c => 1 / (-128 / m) * c) (-128) 127 (sc g) := by
    intro g hg
    have hyb : |-128 / m * (r g).1| ≤ (128 : Nat) := by
      have : |(-128 / m) * (r g).1| = |(r g).1| * 128 / A := by rw [abs_mul, abs_div, hmA]; norm_num; ring
      rw [this, div_le_iff₀ hAp]
      have := hAm.1 g hg
      simp only at this
      push_cast; nlinarith
    obtain ⟨r1, r2⟩ := hr.range hyb
    push_cast at r1 r2
    have e : sc g = max (-128) (min 127 (rnd (-128 / m * (r g).1))) := by
      rw [hsc]; simp only; rw [i8_eq (by omega) (by omega)]; omega
    have hd : (1 : ℝ) / (-128 / m) ≠ 0 := by rw [one_div_div]; exact div_ne_zero hm0 (by norm_num)
    have hy : -128 / m * (r g).1 = ((r g).1 + 0) / (1 / (-128 / m)) := by field_simp; ring
    have hbb := best_of (x := (r g).1) (d := 1 / (-128 / m)) (m := 0) (r := rnd (-128 / m * (r g).1)) (lo := -128) (hi := 127) hd
        (by rw [← hy]; exact hr _) (by norm_num)
    rw [← e] at hbb
    exact ⟨by omega, by omega, hbb.congr fun c => by ring⟩
  have hLv : ∀ t < 256, (L t : Int) - 32 = if P.load bd * (sc (t / 16) : ℝ) = 0 then (r (t / 16)).2 (t % 16) - 32
      else max (-32) (min 31 (rnd (x t / (P.load bd * (sc (t / 16) : ℝ))))) := by
    intro t ht
    have e2 : 16 * (t / 16) + t % 16 = t := by omega
    rw [hL]; simp only [e2]
    have := hc2 (t / 16) (t % 16) (by omega)
    split <;> omega
  have hLlt : ∀ t < 256, L t < 64 := by
    intro t ht
    have h1 := hLv t ht
    have h2 := hc2 (t / 16) (t % 16) (by omega)
    split at h1 <;> omega
  obtain ⟨p1, p2, p3⟩ := code_pack6 L hLlt b (by rw [hq]) (by rw [hq])
  have hbs : b.scales = sc := by rw [hq]
  have hbdd : b.d = bd := by rw [hq]
  refine ⟨⟨p1, p2, fun g hg => by rw [hbs]; exact ⟨(hsb g hg).1, (hsb g hg).2.1⟩⟩, fun g => (r g).1, c, 1 / (-128 / m),
    fun g hg => ⟨hc1 g, hc3 g⟩, ⟨A, hAm, ?_⟩, by rw [hbdd, hbd], fun g hg => by rw [hbs]; exact (hsb g hg).2.2, fun j hj => ?_⟩
  · rw [one_div_div, abs_div, hmA]; norm_num
  · rw [p3 j hj, hbs, hbdd]
    have h1 := hLv j hj
    have h2 := hc2 (j / 16) (j % 16) (by omega)
    refine ⟨by split at h1 <;> omega, by split at h1 <;> omega, fun h => ?_⟩
    rw [if_neg h] at h1
    rw [h1]
    have := best_of (x := x j) (m := 0) (lo := -32) (hi := 31) h (hr ((x j + 0) / (P.load bd * (sc (j / 16) : ℝ)))) (by norm_num)
    rw [add_zero] at this
    exact this.congr fun c => by ring

/-- q6_K rows. -/
theorem C130_quantise_q6_K (P : Plat) {rnd : ℝ → Int} (hr : Rounds rnd) (k : Nat) (x : Nat → ℝ) :
    (quantQ6K P rnd k x).length = k / 256 ∧
      ∀ i < k / 256, ∃ b, (quantQ6K P rnd k x)[i]? = some b ∧ IsQ6K P (fun j => x (i * 256 + j)) b := by
  unfold quantQ6K
  rw [byPtr_eq]
  exact ⟨byIndex_length .., fun i hi => ⟨_, byIndex_get _ _ _ hi, q6KBlock_is P hr _⟩⟩

end Verif.Quant
