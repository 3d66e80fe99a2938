import Verif.Kern.Act
import Verif.Kern.ActSpec
import Verif.Kern.Approx
import Verif.Kern.ApproxSig
import Verif.Kern.PropsSoftmax

/-!
C125 (sigmoid, SiLU, QuickGELU, ReLU) and C126 (GELU).
-/

namespace Verif.Kern

open Verif.Tensor (numel InB lin lin_lt)

theorem Exec.split {α : Type} {a : List (List (Upd α))} {b : List (List (List (Upd α)))} {m m' : Nat → α}
    (h : Exec (a :: b) m m') : ∃ m1, Exec [a] m m1 ∧ Exec b m1 m' := by
  cases h with
  | cons s _ _ hi hr => exact ⟨run s m, .cons s _ _ hi (.nil _), hr⟩

/-- Every element is updated exactly once. -/
theorem ActKernel.call_spec (k : ActKernel) (hb : 0 < k.block) (threads len : Nat) (inplace : Bool) (X : Nat → ℝ)
    {m m' : Nat → ℝ} (hex : Exec (k.call threads len inplace X) m m') :
    (∀ i < len, m' i = (k.upd len inplace X i).fn (m i)) ∧ ∀ a, len ≤ a → m' a = m a := by
  unfold ActKernel.call at hex
  have hmain : len / k.block * k.block ≤ len := Nat.div_mul_le_self _ _
  obtain ⟨main, hm⟩ : ∃ n, n = len / k.block * k.block := ⟨_, rfl⟩
  simp only at hex
  rw [← hm] at hmain hex
  split at hex
  · obtain ⟨m1, h1, h2⟩ := hex.split
    have r1 := h1.row (R := len / k.block) (D := k.block)
      (body := fun b => (List.range k.block).map fun j => k.upd len inplace X (b * k.block + j)) (by
        intro r _ u hu
        obtain ⟨j, hj, rfl⟩ := List.mem_map.mp hu
        have := List.mem_range.mp hj
        simp only [ActKernel.upd]
        omega)
    have r2 := Exec.row (R := 1) (D := len)
      (body := fun _ => (List.range (len - main)).map fun j => k.upd len inplace X (main + j)) (by
        intro r hr u hu
        obtain ⟨j, hj, rfl⟩ := List.mem_map.mp hu
        have := List.mem_range.mp hj
        simp only [ActKernel.upd]
        have : r = 0 := by omega
        subst this
        omega) (by simpa using h2)
    simp only [Nat.zero_mul, Nat.zero_add, Nat.one_mul] at r2
    have e2 : ∀ i < len, m' i = run ((List.range (len - main)).map fun j => k.upd len inplace X (main + j)) m1 i := by
      intro i hi
      have := r2.1 0 (by omega) i hi
      simpa using this
    constructor
    · intro i hi
      rw [e2 i hi]
      by_cases hc : i < main
      · rw [run_other (by
          intro u hu
          obtain ⟨j, hj, rfl⟩ := List.mem_map.mp hu
          simp only [ActKernel.upd]
          omega)]
        have hq : i / k.block < len / k.block := by
          rw [Nat.div_lt_iff_lt_mul hb, ← hm]; exact hc
        have := r1.1 (i / k.block) hq (i % k.block) (Nat.mod_lt _ hb)
        rw [Nat.div_add_mod' i k.block] at this
        rw [this]
        have p := run_pass (α := ℝ) (c := i / k.block * k.block) (n := k.block)
          (fn := fun j => (k.upd len inplace X (i / k.block * k.block + j)).fn) (m := m) (Nat.mod_lt i hb)
        rw [Nat.div_add_mod' i k.block] at p
        exact p
      · have p := run_pass (α := ℝ) (c := main) (n := len - main)
          (fn := fun j => (k.upd len inplace X (main + j)).fn) (m := m1) (j := i - main) (by omega)
        rw [Nat.add_sub_cancel' (by omega)] at p
        rw [r1.2 i (by rw [← hm]; omega)] at p
        exact p
    · intro a ha
      rw [r2.2 a ha, r1.2 a (by rw [← hm]; omega)]
  · have r := Exec.row (R := 1) (D := len) (body := fun _ => (List.range len).map fun i => k.upd len inplace X i) (by
        intro r hr u hu
        obtain ⟨j, hj, rfl⟩ := List.mem_map.mp hu
        have := List.mem_range.mp hj
        simp only [ActKernel.upd]
        have : r = 0 := by omega
        subst this
        omega) (by simpa using hex)
    constructor
    · intro i hi
      have h := r.1 0 (by omega) i hi
      simp only [Nat.zero_mul, Nat.zero_add] at h
      rw [h]
      have p := run_pass (α := ℝ) (c := 0) (n := len) (fn := fun j => (k.upd len inplace X j).fn) (m := m) hi
      simp only [Nat.zero_add] at p
      exact p
    · intro a ha
      exact r.2 a (by omega)

/-- From one element to tensors. -/
theorem pointwise_of {est : ℝ → ℝ} {s : Simd} {a : Act} {k : ActKernel} (hk : actKernel est s a = some k) (hb : 0 < k.block)
    {R : ℝ → ℝ → Prop} (hv : ∀ y, R y (k.vec y)) (hs : ∀ y, R y (k.scal y)) (threads : Nat) (x : Ten ℝ)
    (hx : x.stride = rowStr x.shape) :
    ∃ ss, actForward est s a threads false x = .ok ss ∧ PointwiseOk ss x R := by
  refine ⟨k.call threads (numel x.shape) false x.data, ?_, ?_⟩
  · unfold actForward
    rw [if_neg (fun h => h.2 hx), hk]
  · intro m m' hex
    obtain ⟨h1, h2⟩ := k.call_spec hb threads _ false _ hex
    refine ⟨fun ix hix => ?_, h2⟩
    have hl := lin_lt hix
    have e1 : x.get ix = x.data (lin x.shape ix) := by rw [Ten.get, hx, pos_rowStr hix]
    have e2 : (outRows x.shape m').get ix = m' (lin x.shape ix) := by
      rw [Ten.get, outRows, pos_rowStr hix]
    rw [e1, e2, h1 _ hl]
    simp only [ActKernel.upd]
    split
    · exact hv _
    · exact hs _

theorem inplace_of {est : ℝ → ℝ} {s : Simd} {a : Act} {k : ActKernel} (hk : actKernel est s a = some k) (hb : 0 < k.block)
    {R : ℝ → ℝ → Prop} (hv : ∀ y, R y (k.vec y)) (hs : ∀ y, R y (k.scal y)) (threads : Nat) (x : Ten ℝ)
    (hx : x.stride = rowStr x.shape) :
    ∃ ss, actForward est s a threads true x = .ok ss ∧ InplaceOk ss x.shape R := by
  refine ⟨k.call threads (numel x.shape) true x.data, ?_, ?_⟩
  · unfold actForward
    rw [if_neg (fun h => h.2 hx), hk]
  · intro m m' hex
    obtain ⟨h1, h2⟩ := k.call_spec hb threads _ true _ hex
    refine ⟨fun ix hix => ?_, h2⟩
    have hl := lin_lt hix
    have e1 : (outRows x.shape m).get ix = m (lin x.shape ix) := by rw [Ten.get, outRows, pos_rowStr hix]
    have e2 : (outRows x.shape m').get ix = m' (lin x.shape ix) := by rw [Ten.get, outRows, pos_rowStr hix]
    rw [e1, e2, h1 _ hl]
    simp only [ActKernel.upd]
    split
    · exact hv _
    · exact hs _

/-! ### The sigmoid of the arm kernels -/

/-- What the architecture promises about `vrecpeq_f32` on `[1, ∞)`: eight good bits, or zero where the result would be
subnormal. -/
def GoodEstimate (est : ℝ → ℝ) : Prop := ∀ y, 1 ≤ y → |y * est y - 1| ≤ 2 ^ (-8 : ℤ) ∨ (2 ^ 126 ≤ y ∧ est y = 0)

/-- Division itself is such an estimate, and so is anything off by less than a part in 256. -/
example : GoodEstimate (fun y => 1 / y * (1 + 1 / 300)) := by
  intro y hy
  left
  have : y ≠ 0 := by intro h; rw [h] at hy; linarith
  have e : y * (1 / y * (1 + 1 / 300)) - 1 = 1 / 300 := by field_simp; ring
  rw [e, abs_of_pos (by norm_num)]
  norm_num

theorem armRecip_acc {est : ℝ → ℝ} (he : GoodEstimate est) {y : ℝ} (hy : 1 ≤ y) :
    |y * armRecip est y - 1| ≤ 2.4e-10 ∨ (2 ^ 126 ≤ y ∧ armRecip est y = 0) := by
  rcases he y hy with h | ⟨h1, h2⟩
  · left
    have e : y * armRecip est y - 1 = -((y * est y - 1) ^ 4) := by unfold armRecip; ring
    rw [e, abs_neg, abs_pow]
    have : |y * est y - 1| ^ 4 ≤ (2 ^ (-8 : ℤ)) ^ 4 := pow_le_pow_left₀ (abs_nonneg _) h 4
    refine this.trans ?_
    norm_num
  · right
    refine ⟨h1, ?_⟩
    unfold armRecip
    rw [h2]
    ring

/-- The quotient with an inexact exponential. -/
theorem inv_acc {E Ê ε τ δ : ℝ} (hE : 0 < E) (hÊ : 0 ≤ Ê) (hτ : 0 ≤ τ) (hε : 0 ≤ ε) (h : |Ê - E| ≤ ε * E + τ)
    (hδ : (ε * E + τ) ≤ δ * (1 + Ê)) : |1 / (1 + Ê) - 1 / (1 + E)| ≤ δ * (1 / (1 + E)) := by
  have e : 1 / (1 + Ê) - 1 / (1 + E) = (E - Ê) / ((1 + Ê) * (1 + E)) := by field_simp; ring
  rw [e, abs_div, abs_of_pos (by positivity : 0 < (1 + Ê) * (1 + E)), div_le_iff₀ (by positivity)]
  have h2 : |E - Ê| ≤ ε * E + τ := by rw [abs_sub_comm]; exact h
  refine h2.trans (hδ.trans (le_of_eq ?_))
  field_simp

theorem big_exp : (2 : ℝ) ^ 127 ≤ Real.exp 88.3762626647949 := by
  have h := two_zpow_eq 127
  have e : (2 : ℝ) ^ (127 : ℤ) = 2 ^ 127 := by norm_cast
  rw [← e, h]
  refine Real.exp_le_exp.mpr ?_
  have := log_two_hi
  push_cast
  norm_num at *
  linarith

/-- The arm sigmoid against the logistic function. -/
theorem armSigmoid_acc {est : ℝ → ℝ} (he : GoodEstimate est) (x : ℝ) :
    |armSigmoid est x - sigm x| ≤ 2.2e-7 * sigm x + 2e-38 := by
  have hn := fastExp_nonneg armExp_ok (-x)
  obtain ⟨Ê, hÊ⟩ : ∃ e, e = fastExp armExp (-x) := ⟨_, rfl⟩
  rw [← hÊ] at hn
  have hE := Real.exp_pos (-x)
  have hsp := sigm_pos x
  unfold armSigmoid
  rw [← hÊ]
  -- the exponential, or both are huge
  have acc : |Ê - Real.exp (-x)| ≤ 2e-7 * Real.exp (-x) + 1.2e-38 ∨ (0.9 * 2 ^ 127 ≤ Ê ∧ 2 ^ 127 ≤ Real.exp (-x)) := by
    rcases le_total (-x) 88.3762626647949 with h | h
    · left; rw [hÊ]; exact C121_exp_arm h
    · right
      have b := big_exp
      have e : fastExp armExp (-x) = fastExp armExp expHi := by
        unfold fastExp
        have h' : expHi ≤ -x := h
        rw [min_eq_right h', min_self]
      have c := C121_exp_arm (x := expHi) (le_refl _)
      rw [← e, ← hÊ] at c
      have d : (2 : ℝ) ^ 127 ≤ Real.exp expHi := b
      refine ⟨?_, d.trans (Real.exp_le_exp.mpr h)⟩
      rw [abs_le] at c
      have := c.1
      norm_num at *
      linarith
  have main : ∀ y, y = Ê + 1 → |1 / (1 + Ê) - sigm x| ≤ 2.1e-7 * sigm x + 6.6e-39 := by
    intro y hy
    rcases acc with h | ⟨h1, h2⟩
    · have := inv_acc hE hn (by norm_num : (0 : ℝ) ≤ 1.2e-38) (by norm_num : (0 : ℝ) ≤ 2e-7) h (δ := 2.1e-7) (by
        have := (abs_le.mp h).1
        norm_num at *
        nlinarith)
      unfold sigm
      norm_num at *
      linarith
    · have u1 : 1 / (1 + Ê) ≤ 6.6e-39 := by
        rw [div_le_iff₀ (by positivity)]
        norm_num at *
        linarith
      have u2 : sigm x ≤ 6.6e-39 := by
        unfold sigm
        rw [div_le_iff₀ (by positivity)]
        norm_num at *
        linarith
      have u3 : 0 ≤ 1 / (1 + Ê) := by positivity
      obtain ⟨q, hq⟩ : ∃ q, q = 1 / (1 + Ê) := ⟨_, rfl⟩
      rw [← hq] at u1 u3 ⊢
      rw [abs_le]
      constructor <;> norm_num at * <;> linarith
  have m := main _ rfl
  rcases armRecip_acc he (y := Ê + 1) (by linarith) with h | ⟨h1, h2⟩
  · have hy : 0 < Ê + 1 := by linarith
    have e : armRecip est (Ê + 1) - 1 / (1 + Ê) = ((Ê + 1) * armRecip est (Ê + 1) - 1) * (1 / (1 + Ê)) := by
      field_simp
      ring
    have b : |armRecip est (Ê + 1) - 1 / (1 + Ê)| ≤ 2.4e-10 * (1 / (1 + Ê)) := by
      rw [e, abs_mul, abs_of_pos (by positivity : 0 < 1 / (1 + Ê))]
      exact mul_le_mul_of_nonneg_right h (by positivity)
    have t := abs_sub_le (armRecip est (Ê + 1)) (1 / (1 + Ê)) (sigm x)
    have := (abs_le.mp m).2
    norm_num at *
    linarith
  · rw [h2, zero_sub, abs_neg, abs_of_pos hsp]
    have hlt := sigm_lt_one x
    have u1 : 1 / (1 + Ê) ≤ 1.18e-38 := by
      rw [div_le_iff₀ (by positivity)]
      norm_num at *
      linarith
    have := (abs_le.mp m).1
    norm_num at *
    linarith

/-- C125, sigmoid on arm: relative error `2.2e-7`, plus what cannot be told from zero. -/
theorem C125_sigmoid_arm_partial {est : ℝ → ℝ} (he : GoodEstimate est) (threads : Nat) (x : Ten ℝ)
    (hx : x.stride = rowStr x.shape) : ∃ ss, actForward est .arm .sigmoid threads false x = .ok ss ∧
      PointwiseOk ss x fun a y => |y - sigm a| ≤ 2.2e-7 * sigm a + 2e-38 := by
  refine pointwise_of rfl (by norm_num) (fun y => armSigmoid_acc he y) (fun y => ?_) threads x hx
  have := sigm_pos y
  change |sigm y - sigm y| ≤ _
  rw [sub_self, abs_zero]
  positivity

/-- The same in place. -/
theorem C125_sigmoid_inplace_arm_partial {est : ℝ → ℝ} (he : GoodEstimate est) (threads : Nat) (x : Ten ℝ)
    (hx : x.stride = rowStr x.shape) : ∃ ss, actForward est .arm .sigmoid threads true x = .ok ss ∧
      InplaceOk ss x.shape fun a y => |y - sigm a| ≤ 2.2e-7 * sigm a + 2e-38 := by
  refine inplace_of rfl (by norm_num) (fun y => armSigmoid_acc he y) (fun y => ?_) threads x hx
  have := sigm_pos y
  change |sigm y - sigm y| ≤ _
  rw [sub_self, abs_zero]
  positivity

theorem mul_acc {c ŝ s ε τ : ℝ} (hs : 0 ≤ s) (h : |ŝ - s| ≤ ε * s + τ) : |c * ŝ - c * s| ≤ ε * |c * s| + τ * |c| := by
  rw [← mul_sub, abs_mul, abs_mul c s, abs_of_nonneg hs]
  have := mul_le_mul_of_nonneg_left h (abs_nonneg c)
  refine this.trans (le_of_eq (by ring))

theorem silu_tail (y : ℝ) : y / (1 + Real.exp (-y)) = siluAt y := by unfold siluAt sigm; ring

/-- C125, SiLU on arm. -/
theorem C125_silu_arm_partial {est : ℝ → ℝ} (he : GoodEstimate est) (threads : Nat) (x : Ten ℝ)
    (hx : x.stride = rowStr x.shape) : ∃ ss, actForward est .arm .silu threads false x = .ok ss ∧
      PointwiseOk ss x fun a y => |y - siluAt a| ≤ 2.2e-7 * |siluAt a| + 2e-38 * |a| := by
  refine pointwise_of rfl (by norm_num) (fun y => mul_acc (sigm_pos y).le (armSigmoid_acc he y)) (fun y => ?_) threads x hx
  dsimp only
  rw [silu_tail, sub_self, abs_zero]
  positivity

/-- The same in place. -/
theorem C125_silu_inplace_arm_partial {est : ℝ → ℝ} (he : GoodEstimate est) (threads : Nat) (x : Ten ℝ)
    (hx : x.stride = rowStr x.shape) : ∃ ss, actForward est .arm .silu threads true x = .ok ss ∧
      InplaceOk ss x.shape fun a y => |y - siluAt a| ≤ 2.2e-7 * |siluAt a| + 2e-38 * |a| := by
  refine inplace_of rfl (by norm_num) (fun y => mul_acc (sigm_pos y).le (armSigmoid_acc he y)) (fun y => ?_) threads x hx
  dsimp only
  rw [silu_tail, sub_self, abs_zero]
  positivity

/-- C125, QuickGELU on arm. -/
theorem C125_quickgelu_arm_partial {est : ℝ → ℝ} (he : GoodEstimate est) (threads : Nat) (x : Ten ℝ)
    (hx : x.stride = rowStr x.shape) : ∃ ss, actForward est .arm .quickGelu threads false x = .ok ss ∧
      PointwiseOk ss x fun a y => |y - quickGeluAt a| ≤ 2.2e-7 * |quickGeluAt a| + 2e-38 * |a| := by
  refine pointwise_of rfl (by norm_num) (fun y => ?_) (fun y => ?_) threads x hx
  · dsimp only
    rw [mul_comm y 1.702]
    exact mul_acc (sigm_pos _).le (armSigmoid_acc he (1.702 * y))
  · change |quickGeluAt y - quickGeluAt y| ≤ _
    rw [sub_self, abs_zero]
    positivity

/-- C125, ReLU on arm: exact. -/
theorem C125_relu_arm (est : ℝ → ℝ) (threads : Nat) (x : Ten ℝ) (hx : x.stride = rowStr x.shape) :
    ∃ ss, actForward est .arm .relu threads false x = .ok ss ∧ PointwiseOk ss x fun a y => y = if 0 ≤ a then a else 0 := by
  refine pointwise_of rfl (by norm_num) (fun y => ?_) (fun y => ?_) threads x hx
  · dsimp only
    split
    · exact max_eq_left (by assumption)
    · exact max_eq_right (by linarith)
  · dsimp only
    rcases lt_trichotomy y 0 with h | h | h
    · rw [if_neg (by linarith), if_neg (by linarith)]
    · rw [h]; simp
    · rw [if_pos h, if_pos h.le]

/-! ### x86 -/

theorem x86SiluSigmoid_acc (x : ℝ) : |x86SiluSigmoid x - sigm x| ≤ 0.029 * sigm x + 1.2e-38 := by
  have hn := fastExp_nonneg x86Exp_ok (-x)
  obtain ⟨Ê, hÊ⟩ : ∃ e, e = fastExp x86Exp (-x) := ⟨_, rfl⟩
  rw [← hÊ] at hn
  have hE := Real.exp_pos (-x)
  have hsp := sigm_pos x
  unfold x86SiluSigmoid
  rw [← hÊ]
  rcases le_total (-x) 88.3762626647949 with h | h
  · have acc := C121_exp_x86_partial h
    rw [← hÊ] at acc
    have := inv_acc hE hn (by norm_num : (0 : ℝ) ≤ 1.2e-38) (by norm_num : (0 : ℝ) ≤ 0.028) acc (δ := 0.029) (by
      have := (abs_le.mp acc).1
      norm_num at *
      nlinarith)
    unfold sigm
    norm_num at *
    linarith
  · have b := big_exp
    have e : fastExp x86Exp (-x) = fastExp x86Exp expHi := by
      unfold fastExp
      have h' : expHi ≤ -x := h
      rw [min_eq_right h', min_self]
    have c := C121_exp_x86_partial (x := expHi) (le_refl _)
    rw [← e, ← hÊ] at c
    have d : (2 : ℝ) ^ 127 ≤ Real.exp expHi := b
    have d' : (2 : ℝ) ^ 127 ≤ Real.exp (-x) := d.trans (Real.exp_le_exp.mpr h)
    have h1 : 0.9 * 2 ^ 127 ≤ Ê := by
      have := (abs_le.mp c).1
      norm_num at *
      linarith
    have u1 : 1 / (1 + Ê) ≤ 6.6e-39 := by
      rw [div_le_iff₀ (by positivity)]
      norm_num at *
      linarith
    have u2 : sigm x ≤ 6.6e-39 := by
      unfold sigm
      rw [div_le_iff₀ (by positivity)]
      norm_num at *
      linarith
    have u3 : 0 ≤ 1 / (1 + Ê) := by positivity
    obtain ⟨q, hq⟩ : ∃ q, q = 1 / (1 + Ê) := ⟨_, rfl⟩
    rw [← hq] at u1 u3 ⊢
    rw [abs_le]
    constructor <;> norm_num at * <;> linarith

/-- C125, SiLU on x86: to within 2.9 % only. -/
theorem C125_silu_x86_partial (est : ℝ → ℝ) (lanes : Nat) (hl : 0 < lanes) (threads : Nat) (x : Ten ℝ)
    (hx : x.stride = rowStr x.shape) : ∃ ss, actForward est (.x86 lanes) .silu threads false x = .ok ss ∧
      PointwiseOk ss x fun a y => |y - siluAt a| ≤ 0.029 * |siluAt a| + 1.2e-38 * |a| := by
  refine pointwise_of rfl hl (fun y => mul_acc (sigm_pos y).le (x86SiluSigmoid_acc y)) (fun y => ?_) threads x hx
  dsimp only
  rw [silu_tail, sub_self, abs_zero]
  positivity

/-- C125, sigmoid on x86: to within `2.3e-4` only. -/
theorem C125_sigmoid_x86_partial (est : ℝ → ℝ) (lanes : Nat) (hl : 0 < lanes) (threads : Nat) (x : Ten ℝ)
    (hx : x.stride = rowStr x.shape) : ∃ ss, actForward est (.x86 lanes) .sigmoid threads false x = .ok ss ∧
      PointwiseOk ss x fun a y => |y - sigm a| ≤ 2.3e-4 := by
  refine pointwise_of rfl hl (fun y => x86Sigmoid_close y) (fun y => ?_) threads x hx
  change |sigm y - sigm y| ≤ _
  rw [sub_self, abs_zero]
  norm_num

/-- The exponential of x86 is too large by more than a part in a thousand for arguments above five. -/
theorem x86Exp_high {x : ℝ} (h1 : 5 ≤ x) (h2 : x ≤ 88.3762626647949) : 1.001485 * Real.exp x ≤ fastExp x86Exp x := by
  have hk := x86Exp_ok
  have a1 : -expHi ≤ x := by unfold expHi; norm_num at *; linarith
  have a2 : x ≤ expHi := h2
  have hm := fastExp_drift hk a1 a2 (expN_normal hk (by norm_num at *; linarith))
  have hn : 7 ≤ expN x86Exp x := by
    unfold expN
    rw [Int.le_floor]
    have := hk.lo
    have : 5 * x86Exp.log2e ≤ x * x86Exp.log2e := mul_le_mul_of_nonneg_right h1 (by linarith)
    push_cast
    norm_num at *
    linarith
  have ht : 7 * 2.1219e-4 ≤ (expN x86Exp x : ℝ) * x86Exp.drift := by
    have hd := x86Exp_drift
    have hn' : (7 : ℝ) ≤ expN x86Exp x := by exact_mod_cast hn
    exact mul_le_mul hn' hd (by norm_num) (by linarith)
  have hq : 1 + 7 * 2.1219e-4 ≤ Real.exp (expN x86Exp x * x86Exp.drift) := by
    have := Real.add_one_le_exp ((expN x86Exp x : ℝ) * x86Exp.drift)
    linarith
  have hpos := Real.exp_pos x
  have h3 := (abs_le.mp hm).1
  generalize Real.exp (expN x86Exp x * x86Exp.drift) = q at *
  generalize Real.exp x = e at *
  have : e * (1 + 7 * 2.1219e-4) ≤ e * q := mul_le_mul_of_nonneg_left hq hpos.le
  norm_num at *
  nlinarith

theorem exp_five : 100 ≤ Real.exp 5 := by
  have h : (2.7 : ℝ) ≤ Real.exp 1 := by have := Real.exp_one_gt_d9; norm_num at *; linarith
  have e : Real.exp 5 = Real.exp 1 ^ 5 := by rw [← Real.exp_nat_mul]; norm_num
  rw [e]
  refine le_trans ?_ (pow_le_pow_left₀ (by norm_num) h 5)
  norm_num

/-- C125 fails for SiLU on x86: for inputs between -88 and -5 the result of the vector loop is too small by more than one
part in a thousand, ten thousand times the rounding error of a `float`. -/
theorem C125_silu_x86_violated (est : ℝ → ℝ) (lanes : Nat) (hl : 0 < lanes) (threads : Nat) (x : Ten ℝ)
    (hx : x.stride = rowStr x.shape) (hn : lanes ≤ numel x.shape) :
    ∃ ss, actForward est (.x86 lanes) .silu threads false x = .ok ss ∧ ∀ m m' : Nat → ℝ, Exec ss m m' →
      ∀ ix, InB x.shape ix → lin x.shape ix < lanes → -88 ≤ x.get ix → x.get ix ≤ -5 →
        |(outRows x.shape m').get ix| ≤ (1 - 1.4e-3) * |siluAt (x.get ix)| := by
  refine ⟨_, rfl, ?_⟩
  intro m m' hex ix hix hlt h1 h2
  have e1 : x.get ix = x.data (lin x.shape ix) := by rw [Ten.get, hx, pos_rowStr hix]
  have e2 : (outRows x.shape m').get ix = m' (lin x.shape ix) := by rw [Ten.get, outRows, pos_rowStr hix]
  obtain ⟨hc, -⟩ := ActKernel.call_spec _ hl threads _ false _ hex
  rw [e2, hc _ (lin_lt hix)]
  rw [e1] at h1 h2 ⊢
  have hv : lin x.shape ix < numel x.shape / lanes * lanes := by
    have : 1 ≤ numel x.shape / lanes := (Nat.le_div_iff_mul_le hl).mpr (by omega)
    have := Nat.mul_le_mul_right lanes this
    omega
  simp only [ActKernel.upd, if_pos hv]
  simp only [Bool.false_eq_true, if_false]
  obtain ⟨a, ha⟩ : ∃ a, a = x.data (lin x.shape ix) := ⟨_, rfl⟩
  rw [← ha] at h1 h2 ⊢
  have hb := x86Exp_high (x := -a) (by linarith) (by norm_num at *; linarith)
  have he : 100 ≤ Real.exp (-a) := exp_five.trans (Real.exp_le_exp.mpr (by linarith))
  unfold siluAt x86SiluSigmoid sigm
  rw [abs_mul, abs_mul]
  have hpos : 0 < 1 + fastExp x86Exp (-a) := by linarith
  rw [abs_of_pos (by positivity : 0 < 1 / (1 + fastExp x86Exp (-a))),
    abs_of_pos (by positivity : 0 < 1 / (1 + Real.exp (-a)))]
  have key : 1 / (1 + fastExp x86Exp (-a)) ≤ (1 - 1.4e-3) * (1 / (1 + Real.exp (-a))) := by
    rw [mul_one_div, div_le_div_iff₀ hpos (by positivity)]
    norm_num at *
    nlinarith
  have := mul_le_mul_of_nonneg_left key (abs_nonneg a)
  refine this.trans (le_of_eq (by ring))

/-- Such a tensor: sixteen times `-6`. -/
example : ∃ x : Ten ℝ, x.stride = rowStr x.shape ∧ 8 ≤ numel x.shape ∧ InB x.shape [3] ∧ lin x.shape [3] < 8 ∧
    -88 ≤ x.get [3] ∧ x.get [3] ≤ -5 :=
  ⟨⟨[16], [1], fun _ => -6⟩, rfl, by decide, ⟨by decide, trivial⟩, by decide, by norm_num [Ten.get], by norm_num [Ten.get]⟩

/-- C125 fails for the sigmoid on x86: below -11.5 the result no longer falls, so that it exceeds the true value by any
factor. -/
theorem C125_sigmoid_x86_violated (est : ℝ → ℝ) (lanes : Nat) (hl : 0 < lanes) (threads : Nat) (x : Ten ℝ)
    (hx : x.stride = rowStr x.shape) (hn : lanes ≤ numel x.shape) :
    ∃ ss, actForward est (.x86 lanes) .sigmoid threads false x = .ok ss ∧ ∀ m m' : Nat → ℝ, Exec ss m m' →
      ∀ ix, InB x.shape ix → lin x.shape ix < lanes → x.get ix ≤ -11.5 →
        2.9e-5 ≤ (outRows x.shape m').get ix ∧ sigm (x.get ix) ≤ 2e-5 ∧
          ∀ C, x.get ix ≤ -(11.5 + C) → Real.exp C * sigm (x.get ix) ≤ 2e-5 := by
  refine ⟨_, rfl, ?_⟩
  intro m m' hex ix hix hlt h1
  have e1 : x.get ix = x.data (lin x.shape ix) := by rw [Ten.get, hx, pos_rowStr hix]
  have e2 : (outRows x.shape m').get ix = m' (lin x.shape ix) := by rw [Ten.get, outRows, pos_rowStr hix]
  obtain ⟨hc, -⟩ := ActKernel.call_spec _ hl threads _ false _ hex
  refine ⟨?_, (sigm_mono h1).trans sigm_far, ?_⟩
  · rw [e2, hc _ (lin_lt hix)]
    rw [e1] at h1
    have hv : lin x.shape ix < numel x.shape / lanes * lanes := by
      have : 1 ≤ numel x.shape / lanes := (Nat.le_div_iff_mul_le hl).mpr (by omega)
      have := Nat.mul_le_mul_right lanes this
      omega
    simp only [ActKernel.upd, if_pos hv]
    simp only [Bool.false_eq_true, if_false]
    unfold x86Sigmoid
    rw [min_eq_left (by norm_num at *; linarith), max_eq_right h1]
    unfold x86SigNum x86SigDen
    norm_num
  · intro C hC
    have hs : sigm (x.get ix) ≤ Real.exp (x.get ix) := by
      unfold sigm
      rw [div_le_iff₀ (by have := Real.exp_pos (-x.get ix); positivity), Real.exp_neg]
      have := Real.exp_pos (x.get ix)
      have e : Real.exp (x.get ix) * (1 + (Real.exp (x.get ix))⁻¹) = Real.exp (x.get ix) + 1 := by field_simp
      rw [e]
      linarith
    have h2 : Real.exp C * sigm (x.get ix) ≤ Real.exp C * Real.exp (x.get ix) :=
      mul_le_mul_of_nonneg_left hs (Real.exp_pos C).le
    refine h2.trans ?_
    rw [← Real.exp_add]
    have h3 : Real.exp (C + x.get ix) ≤ Real.exp (-11) := Real.exp_le_exp.mpr (by norm_num at *; linarith)
    refine h3.trans ?_
    rw [Real.exp_neg, inv_le_comm₀ (Real.exp_pos _) (by norm_num)]
    have h : (2.7 : ℝ) ≤ Real.exp 1 := by have := Real.exp_one_gt_d9; norm_num at *; linarith
    have e : Real.exp 11 = Real.exp 1 ^ 11 := by rw [← Real.exp_nat_mul]; norm_num
    rw [e]
    refine le_trans ?_ (pow_le_pow_left₀ (by norm_num) h 11)
    norm_num

/-- C125 fails on x86 for ReLU and QuickGELU, and C126 for GELU: nothing is stored, the result is whatever its memory
held. -/
theorem C125_x86_missing_violated (est : ℝ → ℝ) (lanes : Nat) (a : Act) (ha : a = .relu ∨ a = .gelu ∨ a = .quickGelu)
    (threads : Nat) (inplace : Bool) (x : Ten ℝ) (hx : x.stride = rowStr x.shape) :
    ∃ ss, actForward est (.x86 lanes) a threads inplace x = .ok ss ∧ ∀ m m' : Nat → ℝ, Exec ss m m' → m' = m := by
  refine ⟨[], ?_, fun m m' h => by cases h; rfl⟩
  unfold actForward
  rw [if_neg (fun h => h.2 hx)]
  rcases ha with rfl | rfl | rfl <;> rfl

/-- C125 fails for views: SiLU, sigmoid and ReLU ignore strides. -/
theorem C125_strides_ignored_violated (est : ℝ → ℝ) (s : Simd) (a : Act) (ha : a = .silu ∨ a = .sigmoid ∨ a = .relu)
    (threads : Nat) (inplace : Bool) (x : Ten ℝ) (st : List Nat) :
    actForward est s a threads inplace { x with stride := st } = actForward est s a threads inplace x := by
  rcases ha with rfl | rfl | rfl <;> simp [actForward]

/-- Concretely: the ReLU of the transpose of `[[1, 2], [3, 4]]` comes out as `[[1, 2], [3, 4]]`. -/
theorem C125_transposed_view_violated (est : ℝ → ℝ) (threads : Nat) :
    ∃ (x : Ten ℝ) (ss : _), x.shape = [2, 2] ∧ x.stride = [1, 2] ∧ actForward est .arm .relu threads false x = .ok ss ∧
      ∀ m m' : Nat → ℝ, Exec ss m m' → (outRows [2, 2] m').get [0, 1] ≠ x.get [0, 1] ∧ 0 < x.get [0, 1] := by
  obtain ⟨ss, h1, h2⟩ := C125_relu_arm est threads ⟨[2, 2], [2, 1], fun k => k + 1⟩ rfl
  refine ⟨⟨[2, 2], [1, 2], fun k => k + 1⟩, ss, rfl, rfl, ?_, ?_⟩
  · rw [← h1]
    exact C125_strides_ignored_violated est .arm .relu (Or.inr (Or.inr rfl)) threads false
      ⟨[2, 2], [2, 1], fun k => (k : ℝ) + 1⟩ [1, 2]
  · intro m m' hex
    have := (h2 m m' hex).1 [0, 1] ⟨by omega, by omega, trivial⟩
    simp only at this
    rw [this]
    norm_num [Ten.get, pos]

/-- QuickGELU and GELU refuse views. -/
theorem C125_view_refused (est : ℝ → ℝ) (s : Simd) (a : Act) (ha : a = .gelu ∨ a = .quickGelu) (threads : Nat)
    (inplace : Bool) (x : Ten ℝ) (h : x.stride ≠ rowStr x.shape) :
    actForward est s a threads inplace x = .error .assertion := by
  unfold actForward
  rw [if_pos ⟨ha, h⟩]

/-! ### GELU -/

/-- `0.79788456` against `sqrt(2 / pi)`. -/
theorem beta_close : |0.79788456 - Real.sqrt (2 / Real.pi)| ≤ 1e-8 := by
  have p1 := Real.pi_gt_d20
  have p2 := Real.pi_lt_d20
  have hp : 0 < Real.pi := Real.pi_pos
  have hs := Real.sqrt_nonneg (2 / Real.pi)
  have lo : (0.79788455 : ℝ) ≤ Real.sqrt (2 / Real.pi) := by
    refine Real.le_sqrt_of_sq_le ?_
    rw [le_div_iff₀ hp]
    norm_num at *
    linarith
  have hi : Real.sqrt (2 / Real.pi) ≤ 0.79788457 := by
    rw [Real.sqrt_le_left (by norm_num), div_le_iff₀ hp]
    norm_num at *
    linarith
  rw [abs_le]
  constructor <;> norm_num at * <;> linarith

theorem tanh_lip_nonneg {x y : ℝ} (h : x ≤ y) : Real.tanh y - Real.tanh x ≤ y - x := by
  have hd : ∀ y, 0 ≤ deriv (fun y => y - Real.tanh y) y := by
    intro y
    have : HasDerivAt (fun y => y - Real.tanh y) (1 - (1 - Real.tanh y ^ 2)) y := (hasDerivAt_id y).sub (hasDerivAt_tanh y)
    rw [this.deriv]
    nlinarith [sq_nonneg (Real.tanh y)]
  have m := monotone_of_deriv_nonneg (f := fun y => y - Real.tanh y)
    (fun y => ((hasDerivAt_id y).sub (hasDerivAt_tanh y)).differentiableAt) hd h
  simp only at m
  linarith

theorem tanh_lip (x y : ℝ) : |Real.tanh x - Real.tanh y| ≤ |x - y| := by
  rcases le_total x y with h | h
  · rw [abs_sub_comm, abs_sub_comm x y, abs_of_nonneg (by linarith [tanh_mono h]), abs_of_nonneg (by linarith)]
    exact tanh_lip_nonneg h
  · rw [abs_of_nonneg (by linarith [tanh_mono h]), abs_of_nonneg (by linarith)]
    exact tanh_lip_nonneg h

/-- Scaling the argument by nearly the same constant. -/
theorem tanh_scale {c c' u : ℝ} (h1 : 0.7 ≤ c) (h2 : 0.7 ≤ c') (h : |c - c'| ≤ 1e-8) : |Real.tanh (c * u) - Real.tanh (c' * u)| ≤ 3e-7 := by
  by_cases hu : |u| ≤ 20
  · refine (tanh_lip _ _).trans ?_
    rw [← sub_mul, abs_mul]
    have : |c - c'| * |u| ≤ 1e-8 * 20 := mul_le_mul h hu (abs_nonneg _) (by norm_num)
    norm_num at *
    linarith
  · have hu' : 20 < |u| := not_le.mp hu
    have far : ∀ d, 0.7 ≤ d → ∀ v, 20 < v → 1 - 4e-8 ≤ Real.tanh (d * v) ∧ Real.tanh (d * v) ≤ 1 := by
      intro d hd v hv
      refine ⟨?_, tanh_le_one _⟩
      have h3 : (9 : ℝ) ≤ d * v := by nlinarith
      have h4 := tanh_large 9
      have h5 : Real.exp (-(2 * 9)) = Real.exp (-18) := by norm_num
      rw [h5] at h4
      have := exp_neg18
      have := tanh_mono h3
      norm_num at *
      linarith
    rcases le_total 0 u with h0 | h0
    · rw [abs_of_nonneg h0] at hu'
      obtain ⟨a1, a2⟩ := far c h1 u hu'
      obtain ⟨b1, b2⟩ := far c' h2 u hu'
      rw [abs_le]
      constructor <;> norm_num at * <;> linarith
    · rw [abs_of_nonpos h0] at hu'
      obtain ⟨a1, a2⟩ := far c h1 (-u) hu'
      obtain ⟨b1, b2⟩ := far c' h2 (-u) hu'
      rw [mul_neg, Real.tanh_neg] at a1 a2 b1 b2
      rw [abs_le]
      constructor <;> norm_num at * <;> linarith

theorem armGelu_close (x : ℝ) : |armGelu x - geluAt x| ≤ 1e-6 * |x| := by
  unfold armGelu geluAt
  obtain ⟨u, hu⟩ : ∃ u, u = x + 0.044715 * x ^ 3 := ⟨_, rfl⟩
  have e : x + 0.044715 * (x * (x * x)) = u := by rw [hu]; ring
  simp only
  rw [e, ← hu]
  have b := beta_close
  have b' := (abs_le.mp b).2
  have h1 := armTanh_close (0.79788456 * u)
  have h2 := tanh_scale (c := 0.79788456) (c' := Real.sqrt (2 / Real.pi)) (u := u) (by norm_num) (by norm_num at *; linarith) b
  have h3 := abs_sub_le (armTanh (0.79788456 * u)) (Real.tanh (0.79788456 * u)) (Real.tanh (Real.sqrt (2 / Real.pi) * u))
  have e2 : 0.5 * x * (1 + armTanh (0.79788456 * u)) - 0.5 * x * (1 + Real.tanh (Real.sqrt (2 / Real.pi) * u)) =
      0.5 * x * (armTanh (0.79788456 * u) - Real.tanh (Real.sqrt (2 / Real.pi) * u)) := by ring
  rw [e2, abs_mul, abs_mul, abs_of_pos (by norm_num : (0 : ℝ) < 0.5)]
  have h4 : |armTanh (0.79788456 * u) - Real.tanh (Real.sqrt (2 / Real.pi) * u)| ≤ 2e-6 := by norm_num at *; linarith
  have := mul_le_mul_of_nonneg_left h4 (by positivity : 0 ≤ 0.5 * |x|)
  refine this.trans (le_of_eq (by ring))

/-- C126, GELU on arm: the `tanh` formula to within `1e-6 |x|`. -/
theorem C126_gelu_arm_partial (est : ℝ → ℝ) (threads : Nat) (x : Ten ℝ) (hx : x.stride = rowStr x.shape) :
    ∃ ss, actForward est .arm .gelu threads false x = .ok ss ∧
      PointwiseOk ss x fun a y => |y - geluAt a| ≤ 1e-6 * |a| :=
  pointwise_of rfl (by norm_num) armGelu_close armGelu_close threads x hx

/-- C126 fails on x86: nothing is stored. -/
theorem C126_x86_violated (est : ℝ → ℝ) (lanes threads : Nat) (x : Ten ℝ) (hx : x.stride = rowStr x.shape) :
    ∃ ss, actForward est (.x86 lanes) .gelu threads false x = .ok ss ∧ ∀ m m' : Nat → ℝ, Exec ss m m' → m' = m :=
  C125_x86_missing_violated est lanes .gelu (Or.inr (Or.inl rfl)) threads false x hx

/-- C126: the polynomial quotient itself, the only inexact step on arm. -/
theorem C126_tanh_arm (x : ℝ) : |armTanh x - Real.tanh x| ≤ 1.4e-6 := armTanh_close x

/-- A contiguous tensor with several dimensions, whose rows do not fill vectors. -/
example : (⟨[3, 7], [7, 1], fun k => k - 10⟩ : Ten ℝ).stride = rowStr [3, 7] := rfl

end Verif.Kern
