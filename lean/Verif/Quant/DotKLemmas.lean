import Verif.Quant.DotLemmas

/-! Lane arithmetic of the K-format dot products. -/

namespace Verif.Quant

/-! ### Accumulating in 32 bits -/

theorem fold_i32 {f : Nat → Int} {B : Int} (n : Nat) (s : Int) (hf : ∀ j < n, |f j| ≤ B) (hb : |s| + n * B ≤ 2147483647) :
    (List.range n).foldl (fun s j => i32 (s + f j)) s = s + ∑ j ∈ Finset.range n, f j := by
  induction n with
  | zero => simp
  | succ n ih =>
    have h0 : 0 ≤ B := (abs_nonneg _).trans (hf n (by omega))
    have hsb := sum_bound (n := n + 1) hf
    push_cast at hb hsb
    rw [List.range_succ, List.foldl_append, ih (fun j hj => hf j (by omega)) (by nlinarith)]
    simp only [List.foldl_cons, List.foldl_nil]
    rw [add_assoc, ← Finset.sum_range_succ]
    have : |s + ∑ j ∈ Finset.range (n + 1), f j| ≤ 2147483647 := (abs_add_le _ _).trans (by linarith)
    rw [abs_le] at this
    exact i32_eq (by omega) (by omega)

/-- The same with a loop inside. -/
theorem fold_i32_2 {f : Nat → Nat → Int} {B : Int} (n m : Nat) (h0 : 0 ≤ B) (hf : ∀ j < n, ∀ c < m, |f j c| ≤ B)
    (hb : n * (m * B) ≤ 2147483647) :
    (List.range n).foldl (fun s j => (List.range m).foldl (fun s c => i32 (s + f j c)) s) 0 =
      ∑ j ∈ Finset.range n, ∑ c ∈ Finset.range m, f j c := by
  induction n with
  | zero => simp
  | succ n ih =>
    push_cast at hb
    have hm : (0 : Int) ≤ m * B := by positivity
    have e := ih (fun j hj => hf j (by omega)) (by nlinarith)
    have hs := sum_bound (n := n) (f := fun j => ∑ c ∈ Finset.range m, f j c) (B := m * B)
      fun j hj => sum_bound fun c hc => hf j (by omega) c hc
    rw [List.range_succ, List.foldl_append, e, Finset.sum_range_succ]
    simp only [List.foldl_cons, List.foldl_nil]
    exact fold_i32 m _ (hf n (by omega)) (by linarith)

/-- A fold on lanes, one lane at a time. -/
theorem fold_lane {f : Nat → Nat → Int → Int} (L : List Nat) (s : Nat → Int) (l : Nat) :
    L.foldl (fun s j => fun l => f j l (s l)) s l = L.foldl (fun s j => f j l s) (s l) := by
  induction L generalizing s with
  | nil => rfl
  | cons a t ih => simp only [List.foldl_cons]; rw [ih]

theorem fold_lane2 {f : Nat → Nat → Nat → Int → Int} (L M : List Nat) (s : Nat → Int) (l : Nat) :
    L.foldl (fun s j => M.foldl (fun s c => fun l => f j c l (s l)) s) s l =
      L.foldl (fun s j => M.foldl (fun s c => f j c l s) s) (s l) := by
  induction L generalizing s with
  | nil => rfl
  | cons a t ih =>
    simp only [List.foldl_cons]
    rw [ih, fold_lane (f := fun c l v => f a c l v)]

theorem aux32_sum {w : Nat} (hw : w = 16 ∨ w = 32) {scale q8 a : Nat → Int} (hs : ∀ j < 256 / w, |scale j| ≤ 128)
    (hq : ∀ t < 256, |q8 t| ≤ 128) (ha : ∀ t < 256, |a t| ≤ 32) :
    ∑ l ∈ Finset.range 8, aux32 w scale q8 a l =
      ∑ j ∈ Finset.range (256 / w), scale j * ∑ t ∈ Finset.range w, a (w * j + t) * q8 (w * j + t) := by
  have hwd : 256 / w * w = 256 ∧ w / 8 * 8 = w ∧ 256 / w * (w / 8) = 32 := by rcases hw with rfl | rfl <;> norm_num
  have lane : ∀ l < 8, aux32 w scale q8 a l =
      ∑ j ∈ Finset.range (256 / w), ∑ c ∈ Finset.range (w / 8), scale j * (q8 (w * j + 8 * c + l) * a (w * j + 8 * c + l)) := by
    intro l hl
    unfold aux32
    rw [fold_lane2 (f := fun j c l v => i32 (v + scale j * i16 (q8 (w * j + 8 * c + l) * a (w * j + 8 * c + l))))]
    have idx : ∀ j < 256 / w, ∀ c < w / 8, w * j + 8 * c + l < 256 := by
      intro j hj c hc
      rcases hw with rfl | rfl <;> omega
    have in16 : ∀ j < 256 / w, ∀ c < w / 8, i16 (q8 (w * j + 8 * c + l) * a (w * j + 8 * c + l)) =
        q8 (w * j + 8 * c + l) * a (w * j + 8 * c + l) := fun j hj c hc => by
      have := prod_bd (hq _ (idx j hj c hc)) (ha _ (idx j hj c hc))
      exact i16_eq (by omega) (by omega)
    have hb : ∀ j < 256 / w, ∀ c < w / 8, |scale j * i16 (q8 (w * j + 8 * c + l) * a (w * j + 8 * c + l))| ≤ 128 * (128 * 32) := by
      intro j hj c hc
      rw [in16 j hj c hc]
      exact mul_bound (hs j hj) (mul_bound (hq _ (idx j hj c hc)) (ha _ (idx j hj c hc)))
    rw [fold_i32_2 (256 / w) (w / 8) (by norm_num) hb (by rcases hw with rfl | rfl <;> norm_num)]
    exact Finset.sum_congr rfl fun j hj => Finset.sum_congr rfl fun c hc => by
      rw [in16 j (Finset.mem_range.mp hj) c (Finset.mem_range.mp hc)]
  rw [Finset.sum_congr rfl fun l hl => lane l (Finset.mem_range.mp hl), Finset.sum_comm]
  refine Finset.sum_congr rfl fun j _ => ?_
  rw [Finset.sum_comm]
  have e : Finset.range w = Finset.range (8 * (w / 8)) := by congr 1; omega
  rw [e, ← sum_group (fun t => a (w * j + t) * q8 (w * j + t)) (w / 8) 8, Finset.mul_sum]
  refine Finset.sum_congr rfl fun c _ => ?_
  rw [Finset.mul_sum]
  refine Finset.sum_congr rfl fun l _ => ?_
  rw [Nat.add_assoc]; ring

/-! ### Sixteen-bit sums wrap -/

theorem i16_dvd (n : Int) : (65536 : Int) ∣ i16 n - n := by
  unfold i16; rw [Int.bmod_def]; split <;> omega

theorem i16_congr {a b : Int} (h : (65536 : Int) ∣ a - b) : i16 a = i16 b := by
  unfold i16; rw [Int.bmod_def, Int.bmod_def]; split <;> split <;> omega

theorem vaddv16_lanes {f g : Nat → Int} (h : ∀ l < 8, (65536 : Int) ∣ f l - g l) :
    vaddv16 f = i16 (∑ l ∈ Finset.range 8, g l) := by
  unfold vaddv16
  apply i16_congr
  rw [← Finset.sum_sub_distrib]
  exact Finset.dvd_sum fun l hl => h l (Finset.mem_range.mp hl)

theorem vaddv32_eq {f : Nat → Int} {B : Int} (h : ∀ l < 4, |f l| ≤ B) (hB : B ≤ 500000000) : vaddv32 f = ∑ l ∈ Finset.range 4, f l := by
  have := sum_bound (n := 4) h
  rw [abs_le] at this
  push_cast at this
  exact i32_eq (by omega) (by omega)

/-- `maddubs` without saturation. -/
theorem maddubs_eq {a : Nat → Nat} {b : Nat → Int} {l : Nat} (h1 : a (2 * l) ≤ 63) (h2 : a (2 * l + 1) ≤ 63)
    (h3 : |b (2 * l)| ≤ 128) (h4 : |b (2 * l + 1)| ≤ 128) :
    maddubs a b l = (a (2 * l) : Int) * b (2 * l) + (a (2 * l + 1) : Int) * b (2 * l + 1) := by
  have p1 := prod_bd (a := (a (2 * l) : Int)) (A := 63) (by rw [abs_le]; omega) h3
  have p2 := prod_bd (a := (a (2 * l + 1) : Int)) (A := 63) (by rw [abs_le]; omega) h4
  exact sat16_eq (by omega) (by omega)

theorem maddubs_abs {a : Nat → Nat} {b : Nat → Int} {l : Nat} {A : Int} (h1 : (a (2 * l) : Int) ≤ A) (h2 : (a (2 * l + 1) : Int) ≤ A)
    (hA : A ≤ 63) (h3 : |b (2 * l)| ≤ 128) (h4 : |b (2 * l + 1)| ≤ 128) : |maddubs a b l| ≤ 2 * (A * 128) := by
  rw [maddubs_eq (by omega) (by omega) h3 h4]
  have p1 := prod_bd (a := (a (2 * l) : Int)) (A := A) (by rw [abs_le]; omega) h3
  have p2 := prod_bd (a := (a (2 * l + 1) : Int)) (A := A) (by rw [abs_le]; omega) h4
  rw [abs_le]; constructor <;> omega

/-- The products of 32 bytes with one scale per group of `2m` 16-bit lanes, summed over the eight 32-bit lanes. -/
theorem madd16_sum {s p : Nat → Int} (hs : ∀ l < 16, |s l| ≤ 128) (hp : ∀ l < 16, |p l| ≤ 32768) :
    (∑ l ∈ Finset.range 8, madd16 s p l = ∑ l ∈ Finset.range 16, s l * p l) ∧ ∀ l < 8, |madd16 s p l| ≤ 10000000 := by
  have lane : ∀ l < 8, madd16 s p l = s (2 * l) * p (2 * l) + s (2 * l + 1) * p (2 * l + 1) ∧ |madd16 s p l| ≤ 10000000 := by
    intro l hl
    have b1 := prod_bd (hs (2 * l) (by omega)) (hp (2 * l) (by omega))
    have b2 := prod_bd (hs (2 * l + 1) (by omega)) (hp (2 * l + 1) (by omega))
    have e : madd16 s p l = s (2 * l) * p (2 * l) + s (2 * l + 1) * p (2 * l + 1) := i32_eq (by omega) (by omega)
    refine ⟨e, ?_⟩
    rw [e, abs_le]; constructor <;> omega
  refine ⟨?_, fun l hl => (lane l hl).2⟩
  rw [Finset.sum_congr rfl fun l hl => (lane l (Finset.mem_range.mp hl)).1, Finset.sum_add_distrib]
  exact sum_pairs (fun l => s l * p l) 8

theorem slli16_4 {v : Nat → Nat} (t : Nat) (h : ∀ u, u / 2 = t / 2 → v u < 4) : slli16 4 v t = 16 * v t := by
  unfold slli16
  have h0 := h (2 * (t / 2)) (by omega)
  have h1 := h (2 * (t / 2) + 1) (by omega)
  rw [Nat.shiftLeft_eq, Nat.shiftRight_eq_div_pow]
  have e : t % 2 = 0 ∨ t % 2 = 1 := by omega
  rcases e with e | e
  · have et : 2 * (t / 2) = t := by omega
    rw [et] at h0 h1 ⊢
    rw [e]; norm_num; omega
  · have et : 2 * (t / 2) + 1 = t := by omega
    rw [et] at h1 ⊢
    rw [e]; norm_num; omega

end Verif.Quant
