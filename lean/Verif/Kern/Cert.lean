import Verif.Prelude
import Mathlib.Analysis.Calculus.MeanValue

/-!
Nonnegativity of integer polynomials on real intervals, checked by the kernel on a cover of the interval; and the fencing
lemma that turns such a check into an error bound for a solution of a differential equation.
-/

namespace Verif.Kern

/-- Value of a polynomial, lowest coefficient first. -/
def ev : List ℤ → ℝ → ℝ
  | [], _ => 0
  | c :: p, x => c + x * ev p x

/-- Coefficients of `c + (s + a) * q(s)`. -/
def mulX (a c : ℤ) : List ℤ → List ℤ
  | [] => [c]
  | d :: q => (c + a * d) :: mulX a d q

/-- Coefficients of `p(a + s)`. -/
def shiftP (a : ℤ) : List ℤ → List ℤ
  | [] => []
  | c :: p => mulX a c (shiftP a p)

/-- A lower bound on `[0, w]`. -/
def lowB (w : ℤ) : List ℤ → ℤ
  | [] => 0
  | c :: p => c + min 0 (w * lowB w p)

/-- The pieces start at `lo`, join up, reach `hi`, and the bound is nonnegative on each. -/
def cert (p : List ℤ) (hi : ℤ) : ℤ → List ℤ → Bool
  | _, [] => false
  | lo, w :: ws => decide (0 ≤ w) && decide (0 ≤ lowB w (shiftP lo p)) && (decide (hi ≤ lo + w) || cert p hi (lo + w) ws)

theorem ev_mulX (a c : ℤ) (q : List ℤ) (s : ℝ) : ev (mulX a c q) s = c + (s + a) * ev q s := by
  induction q generalizing c with
  | nil => simp [mulX, ev]
  | cons d q ih => simp only [mulX, ev, ih]; push_cast; ring

theorem ev_shiftP (a : ℤ) (p : List ℤ) (s : ℝ) : ev (shiftP a p) s = ev p (a + s) := by
  induction p with
  | nil => rfl
  | cons c p ih => simp only [shiftP, ev_mulX, ih, ev]; ring

theorem lowB_le {w : ℤ} {s : ℝ} (h0 : 0 ≤ s) (h1 : s ≤ w) (p : List ℤ) : (lowB w p : ℝ) ≤ ev p s := by
  induction p with
  | nil => simp [lowB, ev]
  | cons c p ih =>
    simp only [lowB, ev]
    push_cast
    have : min 0 ((w : ℝ) * lowB w p) ≤ s * ev p s := by
      rcases le_total 0 (lowB w p : ℝ) with h | h
      · exact (min_le_left _ _).trans (mul_nonneg h0 (h.trans ih))
      · refine (min_le_right _ _).trans ?_
        have : (w : ℝ) * lowB w p ≤ s * lowB w p := mul_le_mul_of_nonpos_right h1 h
        exact this.trans (mul_le_mul_of_nonneg_left ih h0)
    linarith

theorem cert_sound {p : List ℤ} {hi lo : ℤ} {ws : List ℤ} (h : cert p hi lo ws = true) {x : ℝ} (h1 : lo ≤ x) (h2 : x ≤ hi) :
    0 ≤ ev p x := by
  induction ws generalizing lo with
  | nil => simp [cert] at h
  | cons w ws ih =>
    simp only [cert, Bool.and_eq_true, Bool.or_eq_true, decide_eq_true_eq] at h
    obtain ⟨⟨hw, hb⟩, hc⟩ := h
    by_cases hx : x ≤ lo + w
    · have := lowB_le (w := w) (s := x - lo) (by linarith) (by linarith) (shiftP lo p)
      rw [ev_shiftP] at this
      rw [show (lo : ℝ) + (x - lo) = x by ring] at this
      exact le_trans (by exact_mod_cast hb) this
    · rcases hc with hc | hc
      · have : (hi : ℝ) ≤ lo + w := by exact_mod_cast hc
        exact absurd (h2.trans this) hx
      · exact ih hc (by push_cast; linarith)

open Set

/-- An error that starts below `e0`, grows by less than `c`, and is (almost) damped. -/
theorem fence {e r k : ℝ → ℝ} {b c κ e0 : ℝ} (hd : ∀ x, 0 ≤ x → x ≤ b → HasDerivAt e (r x - e x * k x) x)
    (h0 : |e 0| ≤ e0) (hc : 0 ≤ c) (hκ : 0 ≤ κ) (hk : ∀ x, 0 ≤ x → x ≤ b → -κ ≤ k x)
    (hr : ∀ x, 0 ≤ x → x ≤ b → |r x| + κ * (e0 + c * b) < c) {x : ℝ} (hx0 : 0 ≤ x) (hxb : x ≤ b) : |e x| ≤ e0 + c * x := by
  have he0 : 0 ≤ e0 := (abs_nonneg _).trans h0
  have one : ∀ (e r : ℝ → ℝ), (∀ x, 0 ≤ x → x ≤ b → HasDerivAt e (r x - e x * k x) x) → |e 0| ≤ e0 →
      (∀ x, 0 ≤ x → x ≤ b → |r x| + κ * (e0 + c * b) < c) → e x ≤ e0 + c * x := by
    intro e r hd h0 hr
    refine image_le_of_deriv_right_lt_deriv_boundary (a := 0) (b := b) (f := e) (f' := fun x => r x - e x * k x)
      (B := fun x => e0 + c * x) (B' := fun _ => c) ?_ ?_ ?_ ?_ ?_ ⟨hx0, hxb⟩
    · intro y hy
      exact (hd y hy.1 hy.2).continuousAt.continuousWithinAt
    · intro y hy
      exact (hd y hy.1 hy.2.le).hasDerivWithinAt
    · simpa using (le_abs_self _).trans h0
    · intro y
      simpa using ((hasDerivAt_id y).const_mul c).const_add e0
    · intro y hy he
      have h1 := hr y hy.1 hy.2.le
      have h2 := hk y hy.1 hy.2.le
      have h3 : 0 ≤ e0 + c * y := by have := mul_nonneg hc hy.1; linarith
      have h4 : c * y ≤ c * b := mul_le_mul_of_nonneg_left hy.2.le hc
      have h5 : κ * (e0 + c * y) ≤ κ * (e0 + c * b) := mul_le_mul_of_nonneg_left (by linarith) hκ
      have h6 : (e0 + c * y) * (-κ) ≤ (e0 + c * y) * k y := mul_le_mul_of_nonneg_left h2 h3
      have h7 := le_abs_self (r y)
      rw [he]
      nlinarith
  rw [abs_le']
  refine ⟨one e r hd h0 hr, one (fun x => -e x) (fun x => -r x) ?_ (by simpa using h0) (by simpa using hr)⟩
  intro y h1 h2
  have := (hd y h1 h2).neg
  exact this.congr_deriv (by ring)

/-- An error that is damped strongly enough stays below a constant. -/
theorem fence_const {e r k : ℝ → ℝ} {a b B : ℝ} (hd : ∀ x, a ≤ x → x ≤ b → HasDerivAt e (r x - e x * k x) x)
    (h0 : |e a| ≤ B) (hr : ∀ x, a ≤ x → x ≤ b → |r x| < B * k x) {x : ℝ} (hx0 : a ≤ x) (hxb : x ≤ b) : |e x| ≤ B := by
  have one : ∀ (e r : ℝ → ℝ), (∀ x, a ≤ x → x ≤ b → HasDerivAt e (r x - e x * k x) x) → |e a| ≤ B →
      (∀ x, a ≤ x → x ≤ b → |r x| < B * k x) → e x ≤ B := by
    intro e r hd h0 hr
    refine image_le_of_deriv_right_lt_deriv_boundary (a := a) (b := b) (f := e) (f' := fun x => r x - e x * k x)
      (B := fun _ => B) (B' := fun _ => 0) ?_ ?_ ?_ ?_ ?_ ⟨hx0, hxb⟩
    · intro y hy
      exact (hd y hy.1 hy.2).continuousAt.continuousWithinAt
    · intro y hy
      exact (hd y hy.1 hy.2.le).hasDerivWithinAt
    · exact (le_abs_self _).trans h0
    · intro y
      exact hasDerivAt_const _ _
    · intro y hy he
      have h1 := hr y hy.1 hy.2.le
      have h7 := le_abs_self (r y)
      rw [he]
      linarith
  rw [abs_le']
  refine ⟨one e r hd h0 hr, one (fun x => -e x) (fun x => -r x) ?_ (by simpa using h0) (by simpa using hr)⟩
  intro y h1 h2
  have := (hd y h1 h2).neg
  exact this.congr_deriv (by ring)

end Verif.Kern
