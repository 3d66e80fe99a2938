import Verif.Marlin.Gemm
import Verif.Marlin.PropsColScale
import Verif.Marlin.StripeLemmas
import Verif.Shard.Tp

namespace Verif.Marlin

open Verif.Kern (Upd run)

variable {R : Type} {c : GemmCfg} {K : Nat}

/-- Whatever the order, a cell that is written at least once and always with the same value holds that value. -/
theorem run_same {α : Type} {us : List (Upd α)} {y : Nat} {v : α} (hex : ∃ u ∈ us, u.addr = y)
    (hall : ∀ u ∈ us, u.addr = y → ∀ z, u.fn z = v) (m : Nat → α) : run us m y = v := by
  induction us generalizing m with
  | nil => obtain ⟨u, hu, _⟩ := hex; cases hu
  | cons u us ih =>
    rw [run]
    by_cases h : ∃ u ∈ us, u.addr = y
    · exact ih h (fun u hu => hall u (List.mem_cons_of_mem _ hu)) _
    · rw [Verif.Kern.run_other (fun u hu he => h ⟨u, hu, he⟩)]
      obtain ⟨w, hw, hwy⟩ := hex
      rcases List.mem_cons.1 hw with rfl | hw
      · subst hwy
        rw [Function.update_self]
        exact hall w List.mem_cons_self rfl _
      · exact absurd ⟨w, hw, hwy⟩ h

theorem xor_div8 (x r : Nat) (hr : r < 8) : (x ^^^ r) / 8 = x / 8 := by
  have := Nat.xor_div_two_pow (a := x) (b := r) (n := 3)
  simp only [show (2 : Nat) ^ 3 = 8 from rfl] at this
  rw [this, Nat.div_eq_of_lt hr, Nat.xor_zero]

theorem transformA_inj {gd x y : Nat} (h8 : gd % 8 = 0) (h : transformA gd x = transformA gd y) : x = y := by
  unfold transformA at h
  rw [Nat.div_add_mod, Nat.div_add_mod] at h
  have hd : ∀ z, (z ^^^ (z / gd % 8)) / gd = z / gd := by
    intro z
    obtain ⟨g, rfl⟩ : ∃ g, gd = 8 * g := ⟨gd / 8, by omega⟩
    rw [← Nat.div_div_eq_div_mul, xor_div8 _ _ (Nat.mod_lt _ (by omega)), Nat.div_div_eq_div_mul]
  have hr : x / gd = y / gd := by rw [← hd x, ← hd y, h]
  rw [hr] at h
  have := congrArg (· ^^^ (y / gd % 8)) h
  simpa [Nat.xor_assoc] using this

/-- Kernel shapes of the theorems: as in `GemmCfg.Ok`, without groups; `p` rows of warps. -/
structure GemmCfg.Shape (c : GemmCfg) (p q : Nat) : Prop where
  tkb : c.tkb = 2 * p
  tnb : c.tnb = 4 * q
  thr : c.threads = 32 * q * p
  p0 : 0 < p
  q0 : 0 < q
  p2 : p % 2 = 0
  n8 : c.N % 8 = 0

theorem GemmCfg.Shape.gd {p q : Nat} (sh : c.Shape p q) : aStride c = 4 * p ∧ c.threads / (4 * p) = 8 * q := by
  have h1 : aStride c = 4 * p := by unfold aStride; rw [sh.tkb]; omega
  refine ⟨h1, ?_⟩
  rw [sh.thr, show 32 * q * p = 4 * p * (8 * q) by ring]
  exact Nat.mul_div_cancel_left _ (by have := sh.p0; omega)

/-- The stage holds every row of the activations that exists. -/
theorem stage_holds {p q : Nat} (sh : c.Shape p q) {mb pm lda8 row : Nat} {A : Nat → Nat → R}
    {ws : List (Upd (Nat → R))} (hp : ws.Perm (aWrites c mb pm lda8 A row)) (mem : Nat → Nat → R)
    {rr cc : Nat} (hr : rr < pm) (hr' : rr < 16 * mb) (hc : cc < 4 * p) :
    run ws mem (transformA (4 * p) (4 * p * rr + cc)) = A (lda8 * rr + cc + 4 * p * row) := by
  obtain ⟨hgd, hper⟩ := sh.gd
  have p0 := sh.p0
  have q0 := sh.q0
  have hdelta : 4 * p * (8 * q) = c.threads := by rw [sh.thr]; ring
  have hthr0 : 0 < c.threads := by rw [← hdelta]; positivity
  have hmem : ∀ u, u ∈ ws ↔ ∃ i, i < divCeil (4 * p * (16 * mb)) c.threads ∧ ∃ tid, tid < c.threads ∧
      c.threads * i + tid < 4 * p * pm ∧ u = Upd.put (transformA (4 * p) (c.threads * i + tid))
        (A (lda8 * (8 * q) * i + (lda8 * (tid / (4 * p)) + tid % (4 * p) + 4 * p * row))) := by
    intro u
    rw [hp.mem_iff]
    unfold aWrites
    simp only [hgd, hper, hdelta, List.mem_flatMap, List.mem_range, Nat.div_add_mod]
    constructor
    · rintro ⟨i, hi, tid, ht, h⟩
      split at h
      · rw [List.mem_singleton] at h
        exact ⟨i, hi, tid, ht, by assumption, h⟩
      · cases h
    · rintro ⟨i, hi, tid, ht, hlt, rfl⟩
      exact ⟨i, hi, tid, ht, by rw [if_pos hlt]; exact List.mem_singleton.2 rfl⟩
  obtain ⟨X, hX⟩ : ∃ X, X = 4 * p * rr + cc := ⟨_, rfl⟩
  rw [← hX]
  have hXrow : X / (4 * p) = rr ∧ X % (4 * p) = cc := by
    rw [hX]
    exact ⟨by rw [Nat.mul_add_div (by omega), Nat.div_eq_of_lt hc, Nat.add_zero], by
      rw [Nat.mul_add_mod, Nat.mod_eq_of_lt hc]⟩
  have hXpm : X < 4 * p * pm := by
    have : 4 * p * (rr + 1) ≤ 4 * p * pm := Nat.mul_le_mul_left _ hr
    rw [Nat.mul_add] at this; omega
  have hXmb : X < 4 * p * (16 * mb) := by
    have : 4 * p * (rr + 1) ≤ 4 * p * (16 * mb) := Nat.mul_le_mul_left _ hr'
    rw [Nat.mul_add] at this; omega
  have hval : ∀ i tid, tid < c.threads → c.threads * i + tid = X →
      lda8 * (8 * q) * i + (lda8 * (tid / (4 * p)) + tid % (4 * p) + 4 * p * row)
        = lda8 * rr + cc + 4 * p * row := by
    intro i tid ht hx
    obtain ⟨h1, h2⟩ := hXrow
    rw [← hx, ← hdelta, show 4 * p * (8 * q) * i + tid = 4 * p * (8 * q * i) + tid by ring] at h1 h2
    rw [Nat.mul_add_div (by omega)] at h1
    rw [Nat.mul_add_mod] at h2
    rw [h2, ← h1]; ring
  apply run_same
  · refine ⟨_, (hmem _).2 ⟨X / c.threads, ?_, X % c.threads, Nat.mod_lt _ hthr0, ?_, rfl⟩, ?_⟩
    · apply Nat.div_lt_of_lt_mul
      exact Nat.lt_of_lt_of_le hXmb (divCeil_spec hthr0).1
    · rw [Nat.div_add_mod]; exact hXpm
    · show transformA _ (c.threads * (X / c.threads) + X % c.threads) = _
      rw [Nat.div_add_mod]
  · intro u hu he z
    obtain ⟨i, _, tid, ht, _, rfl⟩ := (hmem u).1 hu
    have := transformA_inj (by have := sh.p2; omega) he
    show A _ = A _
    rw [hval i tid ht this]

/-- The activation an operand register holds. -/
theorem fragA_eq {p q : Nat} (sh : c.Shape p q) {mb pm lda8 row : Nat} {A : Nat → Nat → R}
    {ws : List (Upd (Nat → R))} (hp : ws.Perm (aWrites c mb pm lda8 A row)) (mem : Nat → Nat → R)
    {w i m row' k : Nat} (hw : w < q * p) (hi : i < 2) (hm : m < mb) (hrow : row' < 16) (hk : k < 16)
    (hpm : 16 * m + row' < pm) :
    fragA c (run ws mem) w i m (4 * (row' % 8) + k % 8 / 2) (row' / 8 + 2 * (k / 8)) (k % 2)
      = A (lda8 * (16 * m + row') + (2 * (p * i + w / q) + k / 8) + 4 * p * row) (k % 8) := by
  obtain ⟨hgd, hper⟩ := sh.gd
  have p0 := sh.p0
  have q0 := sh.q0
  have hwr : w / q < p := Nat.div_lt_of_lt_mul hw
  have hthr : c.threads / 32 / q = p := by
    rw [sh.thr, Nat.div_div_eq_div_mul, Nat.mul_div_cancel_left _ (by omega)]
  unfold fragA ldmatrix aAddr
  dsimp only
  rw [hgd, sh.tnb, show 4 * q / 4 = q by omega, hthr]
  have e1 : (8 * (row' / 8 + 2 * (k / 8)) + (4 * (row' % 8) + k % 8 / 2) / 4) = row' + 16 * (k / 8) := by omega
  have e2 : 2 * ((4 * (row' % 8) + k % 8 / 2) % 4) + k % 2 = k % 8 := by omega
  rw [e1, e2]
  have e3 : (32 * w + (row' + 16 * (k / 8))) % 32 = row' + 16 * (k / 8) := by omega
  have e4 : (32 * w + (row' + 16 * (k / 8))) / 32 = w := by omega
  rw [e3, e4, show (row' + 16 * (k / 8)) % 16 = row' by omega, show (row' + 16 * (k / 8)) / 16 = k / 8 by omega]
  have e5 : 2 * p * i + 4 * p * 16 * m + (4 * p * row' + k / 8 + 2 * (w / q))
      = 4 * p * (16 * m + row') + (2 * (p * i + w / q) + k / 8) := by ring
  rw [e5]
  rw [stage_holds sh hp mem hpm (by omega) (by
    have : p * i ≤ p := by
      have : i = 0 ∨ i = 1 := by omega
      rcases this with rfl | rfl <;> simp
    omega)]

end Verif.Marlin
