import Verif.Quant.Lemmas

/-!
C130: what a quantised row holds.

Dequantising gives the number the format assigns to each element; quantising picks, for every element, a code
that is closest among all the codes its block can hold.
-/

namespace Verif.Quant

open Verif.Kern (run Upd)

/-! ### Dequantisation -/

theorem run_vals {us : List (Upd ℝ)} {val : Nat → ℝ} (h : ∀ u ∈ us, ∀ old, u.fn old = val u.addr) (m : Nat → ℝ) (x : Nat) :
    (x ∈ us.map Upd.addr → run us m x = val x) ∧ (x ∉ us.map Upd.addr → run us m x = m x) := by
  induction us generalizing m with
  | nil => simp [run]
  | cons u us ih =>
    have ih' := ih (fun v hv => h v (List.mem_cons_of_mem _ hv)) (Function.update m u.addr (u.fn (m u.addr)))
    simp only [run, List.map_cons, List.mem_cons, not_or]
    constructor
    · intro hx
      by_cases hin : x ∈ us.map Upd.addr
      · exact ih'.1 hin
      · rw [ih'.2 hin]
        rcases hx with hx | hx
        · rw [hx, Function.update_self]; exact h u List.mem_cons_self _
        · exact absurd hx hin
    · rintro ⟨h1, h2⟩
      rw [ih'.2 h2, Function.update_of_ne h1]

/-- `dequantize_row_q8_0` writes the elements of the row and nothing else. -/
theorem C130_dequantise_q8_0 (P : Plat) (k : Nat) (b : Nat → Q80) (y : Nat → ℝ) (p : Nat) :
    deqQ80 P k b y p = if p < 32 * (k / 32) then rowVal 32 (Q80.val P) b p else y p := by
  unfold deqQ80
  have hv : ∀ u ∈ ((List.range (k / 32)).flatMap fun i => (List.range 32).map fun j =>
      Upd.put (i * 32 + j) (((b i).qs j : ℝ) * P.load (b i).d)), ∀ old, u.fn old = rowVal 32 (Q80.val P) b u.addr := by
    intro u hu old
    simp only [List.mem_flatMap, List.mem_map, List.mem_range] at hu
    obtain ⟨i, _, j, hj, rfl⟩ := hu
    have e1 : (i * 32 + j) / 32 = i := by omega
    have e2 : (i * 32 + j) % 32 = j := by omega
    simp only [Upd.put, rowVal, Q80.val, e1, e2]; ring
  obtain ⟨h1, h2⟩ := run_vals hv y p
  split
  · rename_i hp
    refine h1 ?_
    simp only [List.mem_map, List.mem_flatMap, List.mem_range]
    exact ⟨_, ⟨p / 32, by omega, p % 32, by omega, rfl⟩, by simp only [Upd.put]; omega⟩
  · rename_i hp
    refine h2 fun hm => ?_
    simp only [List.mem_map, List.mem_flatMap, List.mem_range] at hm
    obtain ⟨u, ⟨i, hi, j, hj, rfl⟩, hu⟩ := hm
    simp only [Upd.put] at hu; omega

/-- `dequantize_row_q4_0` writes the elements of the row and nothing else. -/
theorem C130_dequantise_q4_0 (P : Plat) (k : Nat) (b : Nat → Q40) (y : Nat → ℝ) (p : Nat) :
    deqQ40 P k b y p = if p < 32 * (k / 32) then rowVal 32 (Q40.val P) b p else y p := by
  unfold deqQ40
  have hv : ∀ u ∈ ((List.range (k / 32)).flatMap fun i => (List.range 16).flatMap fun j =>
      [Upd.put (i * 32 + j + 0) (((((b i).qs j &&& 0x0F : Nat) : Int) - 8 : Int) * P.load (b i).d),
       Upd.put (i * 32 + j + 16) (((((b i).qs j >>> 4 : Nat) : Int) - 8 : Int) * P.load (b i).d)]),
      ∀ old, u.fn old = rowVal 32 (Q40.val P) b u.addr := by
    intro u hu old
    simp only [List.mem_flatMap, List.mem_range, List.mem_cons, List.not_mem_nil, or_false] at hu
    obtain ⟨i, _, j, hj, rfl | rfl⟩ := hu
    · have e1 : (i * 32 + j + 0) / 32 = i := by omega
      have e2 : (i * 32 + j + 0) % 32 = j := by omega
      simp only [Upd.put, rowVal, Q40.val, Q40.code, e1, e2, if_pos hj, and15]; ring
    · have e1 : (i * 32 + j + 16) / 32 = i := by omega
      have e2 : (i * 32 + j + 16) % 32 = j + 16 := by omega
      have e3 : j + 16 - 16 = j := by omega
      simp only [Upd.put, rowVal, Q40.val, Q40.code, e1, e2, if_neg (show ¬ j + 16 < 16 by omega), e3, shr4]; ring
  obtain ⟨h1, h2⟩ := run_vals hv y p
  split
  · rename_i hp
    refine h1 ?_
    simp only [List.mem_map, List.mem_flatMap, List.mem_range, List.mem_cons, List.not_mem_nil, or_false]
    by_cases hl : p % 32 < 16
    · exact ⟨_, ⟨p / 32, by omega, p % 32, hl, Or.inl rfl⟩, by simp only [Upd.put]; omega⟩
    · exact ⟨_, ⟨p / 32, by omega, p % 32 - 16, by omega, Or.inr rfl⟩, by simp only [Upd.put]; omega⟩
  · rename_i hp
    refine h2 fun hm => ?_
    simp only [List.mem_map, List.mem_flatMap, List.mem_range, List.mem_cons, List.not_mem_nil, or_false] at hm
    obtain ⟨u, ⟨i, hi, j, hj, rfl | rfl⟩, hu⟩ := hm <;> simp only [Upd.put] at hu <;> omega

theorem or_hi {a h : Nat} (ha : a < 16) : a ||| ((h &&& 3) <<< 4) = a + 16 * (h % 4) := by rw [or_shl4 _ ha, and3]

theorem q6At_code {b : Q6K} (hb : b.Bytes) {n l c : Nat} (hn : n < 2) (hl : l < 32) (hc : c < 4) :
    q6At b.ql b.qh n l c = b.code (128 * n + (l + 32 * c)) := by
  have e1 : (128 * n + (l + 32 * c)) / 128 = n := by omega
  have e2 : (128 * n + (l + 32 * c)) % 128 / 32 = c := by omega
  have e3 : (128 * n + (l + 32 * c)) % 32 = l := by omega
  have ha := hb.1 (64 * n + l) (by omega)
  have hb' := hb.1 (64 * n + l + 32) (by omega)
  unfold q6At Q6K.code
  simp only [e1, e2, e3]
  interval_cases c
  · simp only [if_true]
    rw [and15, or_hi (by omega)]
    simp [Nat.shiftRight_zero]
  · norm_num
    rw [and15, or_hi (by omega), shr2]
    have : 64 * n + 32 + l = 64 * n + l + 32 := by omega
    rw [this]
    push_cast; ring
  · norm_num
    rw [shr4, or_hi (by omega), shr4]
    push_cast; ring
  · norm_num
    rw [shr4, or_hi (by omega), shr6]
    have : 64 * n + 32 + l = 64 * n + l + 32 := by omega
    rw [this]
    push_cast; ring

/-- `dequantize_row_q6_K` writes the elements of the row and nothing else. -/
theorem C130_dequantise_q6_K (P : Plat) (k : Nat) (b : Nat → Q6K) (hb : ∀ i < k / 256, (b i).Bytes) (y : Nat → ℝ) (p : Nat) :
    deqQ6K P k b y p = if p < 256 * (k / 256) then rowVal 256 (Q6K.val P) b p else y p := by
  unfold deqQ6K
  have hv : ∀ u ∈ ((List.range (k / 256)).flatMap fun i => (List.range 2).flatMap fun n => (List.range 32).flatMap fun l =>
      (List.range 4).map fun c =>
        Upd.put (256 * i + 128 * n + (l + 32 * c))
          (P.load (b i).d * ((b i).scales (8 * n + (l / 16 + 2 * c)) : ℝ) * (q6At (b i).ql (b i).qh n l c : ℝ))),
      ∀ old, u.fn old = rowVal 256 (Q6K.val P) b u.addr := by
    intro u hu old
    simp only [List.mem_flatMap, List.mem_map, List.mem_range] at hu
    obtain ⟨i, hi, n, hn, l, hl, c, hc, rfl⟩ := hu
    have e1 : (256 * i + 128 * n + (l + 32 * c)) / 256 = i := by omega
    have e2 : (256 * i + 128 * n + (l + 32 * c)) % 256 = 128 * n + (l + 32 * c) := by omega
    have e3 : (128 * n + (l + 32 * c)) / 16 = 8 * n + (l / 16 + 2 * c) := by omega
    simp only [Upd.put, rowVal, Q6K.val, e1, e2, e3, q6At_code (hb i hi) hn hl hc]
  obtain ⟨h1, h2⟩ := run_vals hv y p
  split
  · rename_i hp
    refine h1 ?_
    simp only [List.mem_map, List.mem_flatMap, List.mem_range]
    exact ⟨_, ⟨p / 256, by omega, p % 256 / 128, by omega, p % 32, by omega, p % 128 / 32, by omega, rfl⟩,
      by simp only [Upd.put]; omega⟩
  · rename_i hp
    refine h2 fun hm => ?_
    simp only [List.mem_map, List.mem_flatMap, List.mem_range] at hm
    obtain ⟨u, ⟨i, hi, n, hn, l, hl, c, hc, rfl⟩, hu⟩ := hm
    simp only [Upd.put] at hu; omega

theorem flatMap_len {α : Type} {w : Nat} (f : Nat → List α) (h : ∀ i, (f i).length = w) (n : Nat) :
    ((List.range n).flatMap f).length = w * n := by
  induction n with
  | zero => simp
  | succ n ih => rw [List.range_succ, List.flatMap_append, List.length_append, ih]; simp [h n]; ring

theorem flatMap_get {α : Type} {w : Nat} (f : Nat → List α) (v : Nat → Nat → α) (hl : ∀ i, (f i).length = w) (hw : 0 < w)
    (n : Nat) (h : ∀ i < n, ∀ j < w, (f i)[j]? = some (v i j)) {p : Nat} (hp : p < w * n) :
    ((List.range n).flatMap f)[p]? = some (v (p / w) (p % w)) := by
  induction n with
  | zero => omega
  | succ n ih =>
    rw [List.range_succ, List.flatMap_append]
    by_cases hpn : p < w * n
    · rw [List.getElem?_append_left (by rw [flatMap_len f hl]; exact hpn)]
      exact ih (fun i hi => h i (by omega)) hpn
    · rw [List.getElem?_append_right (by rw [flatMap_len f hl]; omega), flatMap_len f hl]
      rw [Nat.mul_succ] at hp
      have e1 : p / w = n := by
        rw [Nat.div_eq_iff hw]; constructor
        · rw [Nat.mul_comm]; omega
        · rw [Nat.mul_comm n w]; omega
      have e2 : p % w = p - w * n := by
        rw [Nat.mod_eq_sub_mul_div, e1]
      rw [e1, e2]
      simpa using h n (by omega) (p - w * n) (by omega)

/-- `dequantize_row_q8_K` writes the elements of the row in order. -/
theorem C130_dequantise_q8_K (k : Nat) (b : Nat → Q8K) :
    (deqQ8K k b).length = 256 * (k / 256) ∧
      ∀ p < 256 * (k / 256), (deqQ8K k b)[p]? = some (rowVal 256 Q8K.val b p) := by
  refine ⟨flatMap_len _ (fun i => by simp) _, fun p hp => ?_⟩
  exact flatMap_get (w := 256) _ (fun i j => Q8K.val (b i) j) (fun i => by simp) (by norm_num) _
    (fun i _ j hj => by simp [hj, Q8K.val]) hp

theorem getScaleMin_eq {b : Q4K} (hb : b.Bytes) {g : Nat} (hg : g < 8) :
    getScaleMin g b.scales = (b.scale g, b.min g) := by
  unfold getScaleMin Q4K.scale Q4K.min
  have h1 := hb.2 (g + 4) (by omega); have h2 := hb.2 (g - 4) (by omega); have h3 := hb.2 g (by omega)
  by_cases h : g < 4
  · rw [if_pos h, if_pos h, if_pos h, and63, and63]
  · rw [if_neg h, if_neg h, if_neg h, and15, shr4, shr6, Nat.sub_zero, shr6, or_shl4 _ (by omega), or_shl4 _ (by omega)]

/-- `dequantize_row_q4_K` writes the elements of the row in order. -/
theorem C130_dequantise_q4_K (P : Plat) (k : Nat) (b : Nat → Q4K) (hb : ∀ i < k / 256, (b i).Bytes) :
    (deqQ4K P k b).length = 256 * (k / 256) ∧
      ∀ p < 256 * (k / 256), (deqQ4K P k b)[p]? = some (rowVal 256 (Q4K.val P) b p) := by
  refine ⟨flatMap_len _ (fun i => flatMap_len (w := 64) _ (fun jj => by simp) 4) _, fun p hp => ?_⟩
  refine flatMap_get (w := 256) _ (fun i j => Q4K.val P (b i) j)
    (fun i => flatMap_len (w := 64) _ (fun jj => by simp) 4) (by norm_num) _ (fun i hi j hj => ?_) hp
  have := flatMap_get (w := 64) (fun jj =>
    let s1 := getScaleMin (2 * jj + 0) (b i).scales
    let s2 := getScaleMin (2 * jj + 1) (b i).scales
    let q := fun (l : Nat) => (b i).qs (32 * jj + l)
    ((List.range 32).map fun l => P.load (b i).d * (s1.1 : ℝ) * ((q l &&& 0xF : Nat) : ℝ) - P.load (b i).dmin * (s1.2 : ℝ)) ++
    ((List.range 32).map fun l => P.load (b i).d * (s2.1 : ℝ) * ((q l >>> 4 : Nat) : ℝ) - P.load (b i).dmin * (s2.2 : ℝ)))
    (fun jj t => if t < 32 then
        P.load (b i).d * ((getScaleMin (2 * jj) (b i).scales).1 : ℝ) * (((b i).qs (32 * jj + t) &&& 0xF : Nat) : ℝ)
          - P.load (b i).dmin * ((getScaleMin (2 * jj) (b i).scales).2 : ℝ)
      else P.load (b i).d * ((getScaleMin (2 * jj + 1) (b i).scales).1 : ℝ) * (((b i).qs (32 * jj + (t - 32)) >>> 4 : Nat) : ℝ)
          - P.load (b i).dmin * ((getScaleMin (2 * jj + 1) (b i).scales).2 : ℝ))
    (fun jj => by simp) (by norm_num) 4 (fun jj _ t ht => by
      by_cases h : t < 32
      · simp [List.getElem?_append_left, h]
      · rw [List.getElem?_append_right (by simpa using Nat.le_of_not_lt h)]
        simp [h, show t - 32 < 32 by omega]) (p := j) (by omega)
  rw [this]
  congr 1
  unfold Q4K.val Q4K.code
  by_cases h : j % 64 < 32
  · have e1 : j / 32 = 2 * (j / 64) := by omega
    have e2 : j % 32 = j % 64 := by omega
    rw [if_pos h, if_pos h, e1, e2, getScaleMin_eq (hb i hi) (by omega), and15]
  · have e1 : j / 32 = 2 * (j / 64) + 1 := by omega
    have e2 : j % 32 = j % 64 - 32 := by omega
    rw [if_neg h, if_neg h, e1, e2, getScaleMin_eq (hb i hi) (by omega), shr4]

end Verif.Quant
