import Verif.Marlin.GemmLemmas
import Verif.Marlin.PropsStripe
import Mathlib.Algebra.BigOperators.Pi

/-!
# C159: the output is the product of the activations and the dequantised weights
-/

namespace Verif.Marlin

open Verif.Kern (Upd run)

variable {R : Type} [CommRing R] {c : GemmCfg}

/-! ## Specification

`act m k` is the activation of row `m`; `A` holds eight of them per unit, rows `lda8` units apart.
`W k n` is the dequantised weight.  -/

/-- The activations in memory. -/
def ActIn (A : Nat → Nat → R) (lda8 pm K : Nat) (act : Nat → Nat → R) : Prop :=
  ∀ m k, m < pm → k < K → A (lda8 * m + k / 8) (k % 8) = act m k

/-- The operands of C158: every register holds the weight of its row and column. -/
def OperandsOf (c : GemmCfg) (col : Nat) (wop : Nat → Nat → Nat → Nat → Nat → Nat → Nat → R)
    (W : Nat → Nat → R) (r0 n : Nat) : Prop :=
  ∀ t tid i j f r h, r0 ≤ t → t < r0 + n → tid < c.threads → Reg i j f r h →
    wop t tid i j f r h = W (opRow c t tid i r h) (opCol c col tid j f)

/-- Every stage holds what the copies of its tile wrote, in whatever order. -/
def Staged (c : GemmCfg) (mb pm lda8 : Nat) (A : Nat → Nat → R) (sh : Nat → Nat → Nat → R) (r0 n : Nat) : Prop :=
  ∀ t, r0 ≤ t → t < r0 + n → ∃ ws mem, ws.Perm (aWrites c mb pm lda8 A t) ∧ sh t = run ws mem

/-! ## One instruction -/

theorem mma_eq {p q : Nat} (hs : c.Shape p q) {mb pm lda8 : Nat} {A : Nat → Nat → R}
    {act : Nat → Nat → R} {K : Nat} (hA : ActIn A lda8 pm K act) {W : Nat → Nat → R} {col t : Nat}
    {ws : List (Upd (Nat → R))} (hp : ws.Perm (aWrites c mb pm lda8 A t)) (mem : Nat → Nat → R)
    {wop : Nat → Nat → Nat → Nat → Nat → Nat → R} {w m i j f l x : Nat} (hw : w < q * p) (hm : m < mb)
    (hi : i < 2) (hj : j < 4) (hf : f < 2) (hl : l < 32) (hx : x < 4)
    (hpm : 16 * m + (l / 4 + 8 * (x / 2)) < pm) (hK : 32 * p * (t + 1) ≤ K)
    (hW : ∀ tid r h, tid < c.threads → r < 2 → h < 2 →
      wop tid i j f r h = W (opRow c t tid i r h) (opCol c col tid j f)) :
    mma (fragA c (run ws mem) w i m) (fun l' r h => wop (32 * w + l') i j f r h) l x
      = ∑ k ∈ Finset.range 16,
        act (16 * m + (l / 4 + 8 * (x / 2))) (16 * (2 * p * t + p * i + w / q) + k)
          * W (16 * (2 * p * t + p * i + w / q) + k)
              (64 * (q * col + w % q) + 16 * j + 8 * f + (2 * (l % 4) + x % 2)) := by
  unfold mma
  apply Finset.sum_congr rfl
  intro k hk
  rw [Finset.mem_range] at hk
  rw [fragA_eq hs hp mem hw hi hm (by omega) hk hpm]
  have hthr : 32 * w + (4 * (2 * (l % 4) + x % 2) + k % 8 / 2) < c.threads := by
    rw [hs.thr, show 32 * q * p = 32 * (q * p) by ring]; omega
  dsimp only
  rw [hW _ _ _ hthr (by omega) (by omega)]
  have hwr : w / q < p := Nat.div_lt_of_lt_mul hw
  have hlt : 16 * (2 * p * t + p * i + w / q) + k < K := by
    have : p * i ≤ p := by
      have : i = 0 ∨ i = 1 := by omega
      rcases this with rfl | rfl <;> simp
    rw [show 32 * p * (t + 1) = 16 * (2 * p * t) + 32 * p by ring] at hK
    omega
  congr 1
  · rw [← hA _ _ hpm hlt]
    congr 1
    · rw [show (16 * (2 * p * t + p * i + w / q) + k) / 8 = 2 * (2 * p * t + p * i + w / q) + k / 8 by omega]
      ring
    · omega
  · unfold opRow opCol
    rw [hs.tkb, hs.tnb, show 4 * q / 4 = q by omega, show 2 * p / 2 = p by omega]
    have e1 : (32 * w + (4 * (2 * (l % 4) + x % 2) + k % 8 / 2)) / 32 = w := by omega
    have e2 : (32 * w + (4 * (2 * (l % 4) + x % 2) + k % 8 / 2)) % 32
        = 4 * (2 * (l % 4) + x % 2) + k % 8 / 2 := by omega
    rw [e1, e2]
    congr 1
    · generalize 2 * p * t + p * i + w / q = u
      omega
    · omega

/-! ## All tiles of a slice -/

theorem acc_eq {p q : Nat} (hs : c.Shape p q) {mb pm lda8 : Nat} {A : Nat → Nat → R}
    {act : Nat → Nat → R} {K : Nat} (hA : ActIn A lda8 pm K act) {W : Nat → Nat → R} {col r0 : Nat}
    {sh : Nat → Nat → Nat → R} {wop : Nat → Nat → Nat → Nat → Nat → Nat → Nat → R} {w m j f l x : Nat}
    (hw : w < q * p) (hm : m < mb) (hj : j < 4) (hf : f < 2) (hl : l < 32) (hx : x < 4)
    (hpm : 16 * m + (l / 4 + 8 * (x / 2)) < pm) (n : Nat) (hK : 32 * p * (r0 + n) ≤ K)
    (hsh : Staged c mb pm lda8 A sh r0 n) (hW : OperandsOf c col wop W r0 n) :
    acc c sh wop r0 w m j f l x n
      = ∑ t ∈ Finset.range n, ∑ i ∈ Finset.range 2, ∑ k ∈ Finset.range 16,
        act (16 * m + (l / 4 + 8 * (x / 2))) (16 * (2 * p * (r0 + t) + p * i + w / q) + k)
          * W (16 * (2 * p * (r0 + t) + p * i + w / q) + k)
              (64 * (q * col + w % q) + 16 * j + 8 * f + (2 * (l % 4) + x % 2)) := by
  induction n with
  | zero => rfl
  | succ n ih =>
    have ih' := ih (le_trans (Nat.mul_le_mul_left _ (by omega)) hK) (fun t h1 h2 => hsh t h1 (by omega)) (fun t tid i j f r h h1 h2 => hW t tid i j f r h h1 (by omega))
    obtain ⟨ws, mem, hp, he⟩ := hsh (r0 + n) (by omega) (by omega)
    have hstep := fun i (hi : i < 2) => mma_eq hs hA hp mem (wop := fun tid i j f r h => wop (r0 + n) tid i j f r h)
      (W := W) (col := col) hw hm hi hj hf hl hx hpm hK
      (fun tid r h ht hr hh => hW (r0 + n) tid i j f r h (by omega) (by omega) ht ⟨hi, hj, hf, hr, hh⟩)
    rw [acc, ih', Finset.sum_range_succ, he, hstep 0 (by omega), hstep 1 (by omega)]
    simp only [Finset.sum_range_succ, Finset.sum_range_zero]
    ring

/-! ## The rows of warps -/

theorem redLoop_sum (off : Nat) : ∀ e fuel, e < fuel → ∀ s : (Nat → R) × (Nat → R), 2 ^ e < off →
    (redLoop off fuel (2 ^ e) s).1 0 + (redLoop off fuel (2 ^ e) s).2 0
      = ∑ r ∈ Finset.range (2 * 2 ^ e), (s.1 r + s.2 r) := by
  intro e
  induction e with
  | zero =>
    intro fuel hf s ho
    obtain ⟨fuel, rfl⟩ : ∃ k, fuel = k + 1 := ⟨fuel - 1, by omega⟩
    have hz : ∀ k (s : (Nat → R) × (Nat → R)), redLoop off k 0 s = s := by
      intro k s; cases k <;> simp [redLoop]
    simp only [redLoop, pow_zero, show (1 : Nat) > 0 from Nat.one_pos, if_true]
    rw [show 1 / 2 = 0 from rfl, hz]
    simp only [pow_zero] at ho
    simp [redRound, ho, Finset.sum_range_succ]
    ring
  | succ e ih =>
    intro fuel hf s ho
    obtain ⟨fuel, rfl⟩ : ∃ k, fuel = k + 1 := ⟨fuel - 1, by omega⟩
    have hpos : 2 ^ (e + 1) > 0 := by positivity
    have hh : 2 ^ (e + 1) / 2 = 2 ^ e := by rw [pow_succ]; omega
    rw [redLoop, if_pos hpos, hh, ih fuel (by omega) _ (by rw [pow_succ] at ho; omega)]
    rw [show 2 * 2 ^ e = 2 ^ (e + 1) by rw [pow_succ]; ring]
    generalize 2 ^ (e + 1) = i at *
    rw [show 2 * i = i + i by ring, Finset.sum_range_add, ← Finset.sum_add_distrib]
    apply Finset.sum_congr rfl
    intro r hr
    rw [Finset.mem_range] at hr
    simp only [redRound, hr, if_true]
    rw [if_neg (by omega), if_pos ⟨by omega, by omega, ho⟩, show r + i - i = r by omega, Nat.add_comm r i]
    ring

/-- **C159.** The reduction over the rows of warps adds every row exactly once, whatever shared
memory held before (the number of rows is a power of two in every kernel). -/
theorem C159_block_reduce (e : Nat) (frag slot : Nat → R) :
    blockReduce (2 ^ e) frag slot = ∑ r ∈ Finset.range (2 ^ e), frag r := by
  cases e with
  | zero => simp [blockReduce]
  | succ e =>
    have hh : 2 ^ (e + 1) / 2 = 2 ^ e := by rw [pow_succ]; omega
    have hpos : 2 ^ e ≥ 1 := Nat.one_le_two_pow
    unfold blockReduce
    simp only [hh, hpos, if_true]
    rw [redLoop, if_pos (by omega)]
    have hround : redRound (2 ^ e) (2 ^ e) (frag, slot)
        = (frag, fun t => if t < 2 ^ e then frag (t + 2 ^ e) else slot t) := by
      unfold redRound
      simp
    rw [hround]
    cases e with
    | zero =>
      have hz : ∀ k (s : (Nat → R) × (Nat → R)), redLoop (2 ^ 0) k 0 s = s := by
        intro k s; cases k <;> simp [redLoop]
      rw [show 2 ^ 0 / 2 = 0 from rfl, hz]
      simp [Finset.sum_range_succ]
    | succ e =>
      have hh2 : 2 ^ (e + 1) / 2 = 2 ^ e := by rw [pow_succ]; omega
      rw [hh2, redLoop_sum _ e _ (by
        have : e + 1 < 2 ^ (e + 1) := Nat.lt_two_pow_self
        omega) _ (by rw [pow_succ]; have : 0 < 2 ^ e := by positivity
                     omega)]
      rw [show 2 * 2 ^ e = 2 ^ (e + 1) by rw [pow_succ]; ring,
        show 2 ^ (e + 1 + 1) = 2 ^ (e + 1) + 2 ^ (e + 1) by rw [pow_succ]; ring, Finset.sum_range_add,
        ← Finset.sum_add_distrib]
      apply Finset.sum_congr rfl
      intro r hr
      rw [Finset.mem_range] at hr
      simp only [hr, if_true]
      rw [Nat.add_comm r]

/-! ## One slice -/

/-- The register of the element in row `M`, column `n` of a block tile: `(w, m, j, f, l, x)`. -/
def sliceAt (c : GemmCfg) (sh : Nat → Nat → Nat → R) (wop : Nat → Nat → Nat → Nat → Nat → Nat → Nat → R)
    (slot : Nat → R) (r0 n : Nat) (M N : Nat) : R :=
  sliceReg c sh wop slot r0 n (N / 64) (M / 16) (N % 64 / 16) (N % 16 / 8) (4 * (M % 8) + N % 8 / 2)
    (2 * (M % 16 / 8) + N % 2)

theorem sum_rows {p : Nat} (g : Nat → R) (r0 n : Nat) :
    ∑ r ∈ Finset.range p, ∑ t ∈ Finset.range n, ∑ i ∈ Finset.range 2, ∑ k ∈ Finset.range 16,
        g (16 * (2 * p * (r0 + t) + p * i + r) + k)
      = ∑ t ∈ Finset.range n, ∑ k ∈ Finset.range (32 * p), g (32 * p * (r0 + t) + k) := by
  rw [Finset.sum_comm]
  apply Finset.sum_congr rfl
  intro t _
  rw [Finset.sum_comm]
  have h1 := Verif.Shard.sum_blocks (fun u => ∑ k ∈ Finset.range 16, g (16 * (2 * p * (r0 + t) + u) + k)) 2 p
  have h2 := Verif.Shard.sum_blocks (fun u => g (32 * p * (r0 + t) + u)) (2 * p) 16
  rw [show 32 * p = 2 * p * 16 by ring] at *
  rw [← h2]
  refine Eq.trans ?_ (h1.trans ?_)
  · apply Finset.sum_congr rfl
    intro i _
    apply Finset.sum_congr rfl
    intro r _
    apply Finset.sum_congr rfl
    intro k _
    congr 1; ring
  · apply Finset.sum_congr rfl
    intro u _
    apply Finset.sum_congr rfl
    intro k _
    congr 1; ring

/-- **C159.** What a block has computed when it reaches the end of a slice: for every existing row and
every column of the tile, the sum over the `k` of the slice's tiles, each taken once. -/
theorem C159_slice {e q : Nat} (hs : c.Shape (2 ^ e) q) {mb pm lda8 : Nat} {A : Nat → Nat → R}
    {act : Nat → Nat → R} {K : Nat} (hA : ActIn A lda8 pm K act) {W : Nat → Nat → R} {col r0 n : Nat}
    {sh : Nat → Nat → Nat → R} {wop : Nat → Nat → Nat → Nat → Nat → Nat → Nat → R}
    (hK : 16 * c.tkb * (r0 + n) ≤ K) (hsh : Staged c mb pm lda8 A sh r0 n) (hW : OperandsOf c col wop W r0 n)
    (slot : Nat → R) {M N : Nat} (hM : M < pm) (hM' : M < 16 * mb) (hN : N < 16 * c.tnb) :
    sliceAt c sh wop slot r0 n M N
      = ∑ t ∈ Finset.range n, ∑ k ∈ Finset.range (16 * c.tkb),
          act M (16 * c.tkb * (r0 + t) + k) * W (16 * c.tkb * (r0 + t) + k) (16 * c.tnb * col + N) := by
  have q0 := hs.q0
  have p0 := hs.p0
  have hN' : N < 64 * q := by rw [hs.tnb] at hN; omega
  have hw : N / 64 < q := by omega
  have hrows : c.threads / 32 / (c.tnb / 4) = 2 ^ e := by
    rw [hs.tnb, show 4 * q / 4 = q by omega, hs.thr, Nat.div_div_eq_div_mul, Nat.mul_div_cancel_left _ (by omega)]
  unfold sliceAt sliceReg
  rw [hrows, C159_block_reduce, hs.tnb, show 4 * q / 4 = q by omega]
  rw [hs.tkb] at hK ⊢
  rw [show 16 * (2 * 2 ^ e) = 32 * 2 ^ e by ring] at *
  rw [← sum_rows (fun kk => act M kk * W kk (16 * (4 * q) * col + N))]
  apply Finset.sum_congr rfl
  intro r hr
  rw [Finset.mem_range] at hr
  have hwlt : r * q + N / 64 < q * 2 ^ e := by
    have : (r + 1) * q ≤ 2 ^ e * q := Nat.mul_le_mul_right _ hr
    rw [Nat.add_mul, Nat.mul_comm (2 ^ e)] at this
    omega
  have hrow : 16 * (M / 16) + ((4 * (M % 8) + N % 8 / 2) / 4 + 8 * ((2 * (M % 16 / 8) + N % 2) / 2)) = M := by omega
  rw [acc_eq hs hA hwlt (show M / 16 < mb by omega) (by omega) (by omega) (by omega) (by omega) (by omega) n hK
    hsh hW, hrow]
  have hd : (r * q + N / 64) / q = r := by
    rw [Nat.mul_comm r, Nat.mul_add_div q0, Nat.div_eq_of_lt hw, Nat.add_zero]
  have hm : (r * q + N / 64) % q = N / 64 := by
    rw [Nat.mul_comm r, Nat.mul_add_mod, Nat.mod_eq_of_lt hw]
  rw [hd, hm]
  have hcol : 64 * (q * col + N / 64) + 16 * (N % 64 / 16) + 8 * (N % 16 / 8)
      + (2 * ((4 * (M % 8) + N % 8 / 2) % 4) + (2 * (M % 16 / 8) + N % 2) % 2) = 16 * (4 * q) * col + N := by
    rw [show 16 * (4 * q) * col = 64 * (q * col) by ring]
    generalize q * col = z
    omega
  rw [hcol]

/-! ## Writing the result -/

/-- What a block stages in shared memory for the output. -/
theorem staged_out {p q : Nat} (hs : c.Shape p q) {mb : Nat} {res : Nat → Nat → Nat → Nat → Nat → Nat → R}
    {ws : List (Upd (Nat → R))} (hp : ws.Perm (cWrites c mb res)) (mem : Nat → Nat → R)
    {row pr : Nat} (hr : row < 16 * mb) (hpr : pr < 32 * q) {half : Nat} :
    run ws mem (4 * (2 * c.tnb + 1) * row + pr) half
      = res (row / 16) (pr % 32 / 8) (pr % 8 / 4) (4 * (row % 8) + pr % 4) (pr / 32) (2 * (row % 16 / 8) + half) := by
  have q0 := hs.q0
  have p0 := hs.p0
  have hthr : q ≤ c.threads / 32 := by
    rw [hs.thr, show 32 * q * p = 32 * (q * p) by ring, Nat.mul_div_cancel_left _ (by omega)]
    exact Nat.le_mul_of_pos_right _ p0
  refine congrFun (run_same (v := fun half => res (row / 16) (pr % 32 / 8) (pr % 8 / 4) (4 * (row % 8) + pr % 4)
    (pr / 32) (2 * (row % 16 / 8) + half)) ?_ ?_ mem) half
  · refine ⟨Upd.put (4 * (2 * c.tnb + 1) * ((32 * (pr / 32) + (4 * (row % 8) + pr % 4)) % 32 / 4)
        + (32 * (pr / 32) + (4 * (row % 8) + pr % 4)) % 32 % 4
        + 32 * ((32 * (pr / 32) + (4 * (row % 8) + pr % 4)) / 32) + 16 * (4 * (2 * c.tnb + 1)) * (row / 16)
        + 8 * (pr % 32 / 8) + 4 * (2 * c.tnb + 1) * (8 * (row % 16 / 8)) + 4 * (pr % 8 / 4))
        (fun half => res (row / 16) (pr % 32 / 8) (pr % 8 / 4) ((32 * (pr / 32) + (4 * (row % 8) + pr % 4)) % 32)
          ((32 * (pr / 32) + (4 * (row % 8) + pr % 4)) / 32) (2 * (row % 16 / 8) + half)), hp.mem_iff.2 ?_, ?_⟩
    · unfold cWrites
      rw [List.mem_flatMap]
      refine ⟨32 * (pr / 32) + (4 * (row % 8) + pr % 4), List.mem_range.2 (by omega), ?_⟩
      rw [if_pos (by rw [hs.tnb]; omega)]
      simp only [List.mem_flatMap, List.mem_map, List.mem_range]
      exact ⟨row / 16, by omega, pr % 32 / 8, by omega, pr % 8 / 4, by omega, row % 16 / 8, by omega, rfl⟩
    · show 4 * (2 * c.tnb + 1) * ((32 * (pr / 32) + (4 * (row % 8) + pr % 4)) % 32 / 4)
        + (32 * (pr / 32) + (4 * (row % 8) + pr % 4)) % 32 % 4
        + 32 * ((32 * (pr / 32) + (4 * (row % 8) + pr % 4)) / 32) + 16 * (4 * (2 * c.tnb + 1)) * (row / 16)
        + 8 * (pr % 32 / 8) + 4 * (2 * c.tnb + 1) * (8 * (row % 16 / 8)) + 4 * (pr % 8 / 4) = _
      have e1 : (32 * (pr / 32) + (4 * (row % 8) + pr % 4)) % 32 / 4 = row % 8 := by omega
      have e2 : (32 * (pr / 32) + (4 * (row % 8) + pr % 4)) % 32 % 4 = pr % 4 := by omega
      have e3 : (32 * (pr / 32) + (4 * (row % 8) + pr % 4)) / 32 = pr / 32 := by omega
      rw [e1, e2, e3]
      have e4 : row = row % 8 + 8 * (row % 16 / 8) + 16 * (row / 16) := by omega
      have e5 : pr = pr % 4 + 4 * (pr % 8 / 4) + 8 * (pr % 32 / 8) + 32 * (pr / 32) := by omega
      generalize 4 * (2 * c.tnb + 1) = S
      conv_rhs => rw [e4, e5]
      ring
  · intro u hu he z
    rw [hp.mem_iff] at hu
    unfold cWrites at hu
    rw [List.mem_flatMap] at hu
    obtain ⟨tid, ht, hu⟩ := hu
    split at hu
    rotate_left
    · cases hu
    rename_i hwq
    rw [hs.tnb, show 4 * q / 4 = q by omega] at hwq
    simp only [List.mem_flatMap, List.mem_map, List.mem_range] at hu
    obtain ⟨m, hm, j, hj, f, hf, v, hv, rfl⟩ := hu
    have he' : 4 * (2 * c.tnb + 1) * (tid % 32 / 4 + 8 * v + 16 * m) + (tid % 32 % 4 + 4 * f + 8 * j + 32 * (tid / 32))
        = 4 * (2 * c.tnb + 1) * row + pr := by
      refine Eq.trans ?_ he
      show _ = 4 * (2 * c.tnb + 1) * (tid % 32 / 4) + tid % 32 % 4 + 32 * (tid / 32)
        + 16 * (4 * (2 * c.tnb + 1)) * m + 8 * j + 4 * (2 * c.tnb + 1) * (8 * v) + 4 * f
      ring
    have hS : 0 < 4 * (2 * c.tnb + 1) := by omega
    have hlt1 : tid % 32 % 4 + 4 * f + 8 * j + 32 * (tid / 32) < 4 * (2 * c.tnb + 1) := by rw [hs.tnb]; omega
    have hlt2 : pr < 4 * (2 * c.tnb + 1) := by rw [hs.tnb]; omega
    have hdiv := congrArg (· / (4 * (2 * c.tnb + 1))) he'
    have hmod := congrArg (· % (4 * (2 * c.tnb + 1))) he'
    simp only [Nat.mul_add_div hS, Nat.mul_add_mod, Nat.div_eq_of_lt hlt1, Nat.div_eq_of_lt hlt2,
      Nat.mod_eq_of_lt hlt1, Nat.mod_eq_of_lt hlt2, Nat.add_zero] at hdiv hmod
    show (fun half => res m j f (tid % 32) (tid / 32) (2 * v + half)) = _
    funext half
    have a1 : m = row / 16 := by omega
    have a2 : v = row % 16 / 8 := by omega
    have a3 : tid % 32 = 4 * (row % 8) + pr % 4 := by omega
    have a4 : f = pr % 8 / 4 := by omega
    have a5 : j = pr % 32 / 8 := by omega
    have a6 : tid / 32 = pr / 32 := by omega
    rw [← a1, ← a2, ← a3, ← a4, ← a5, ← a6]

/-- **C159.** `write_result`: element `(m, n)` of a block tile ends in row `m`, column
`16 * thread_n_blocks * col + n` of the output, for the rows that exist; every other cell is left as it
was. -/
theorem C159_write {p q : Nat} (hs : c.Shape p q) {mb pm nt col : Nat} (hpm : pm ≤ 16 * mb)
    (hN : c.N = 16 * c.tnb * nt) (hcol : col < nt) {res : Nat → Nat → Nat → Nat → Nat → Nat → R} {v : Nat → Nat → R}
    (hres : ∀ M n, M < pm → n < 16 * c.tnb → res (M / 16) (n % 64 / 16) (n % 16 / 8) (4 * (M % 8) + n % 8 / 2) (n / 64)
      (2 * (M % 16 / 8) + n % 2) = v M n)
    {ws : List (Upd (Nat → R))} (hp : ws.Perm (cWrites c mb res)) (mem : Nat → Nat → R)
    {os : List (Upd (Nat → R))} (ho : os.Perm (outWrites c mb pm col (run ws mem))) (out : Nat → Nat → R) :
    (∀ M n, M < pm → n < 16 * c.tnb →
      run os out (c.N / 8 * M + (16 * c.tnb * col + n) / 8) (n % 8) = v M n)
    ∧ ∀ y, (∀ M n, M < pm → n < 16 * c.tnb → y ≠ c.N / 8 * M + (16 * c.tnb * col + n) / 8) →
      run os out y = out y := by
  have q0 := hs.q0
  have p0 := hs.p0
  have hT : 2 * c.tnb = 8 * q := by rw [hs.tnb]; ring
  have hN8 : c.N / 8 = 8 * q * nt := by
    rw [hN, hs.tnb, show 16 * (4 * q) * nt = 8 * (8 * q * nt) by ring, Nat.mul_div_cancel_left _ (by omega)]
  have hper : c.threads / (8 * q) = 4 * p := by
    rw [hs.thr, show 32 * q * p = 8 * q * (4 * p) by ring, Nat.mul_div_cancel_left _ (by omega)]
  have hthr : c.threads = 8 * q * (4 * p) := by rw [hs.thr]; ring
  have hcell : ∀ cc, cc < 8 * q → 8 * q * col + cc < 8 * q * nt := by
    intro cc hcc
    have : 8 * q * (col + 1) ≤ 8 * q * nt := Nat.mul_le_mul_left _ hcol
    rw [Nat.mul_add] at this; omega
  have hN0 : 0 < 8 * q * nt := by
    have := hcell 0 (by omega); omega
  -- the writes
  have hmem : ∀ u, u ∈ os ↔ ∃ row cc, row < pm ∧ cc < 8 * q ∧
      u = Upd.put (8 * q * nt * row + (8 * q * col + cc))
        (fun e => run ws mem (4 * ((2 * c.tnb + 1) * row + cc) + e / 2) (e % 2)) := by
    intro u
    rw [ho.mem_iff]
    unfold outWrites
    simp only [hT, hN8, hper, List.mem_flatMap, List.mem_range]
    constructor
    · rintro ⟨tid, ht, i, hi, h⟩
      have hcc : tid % (8 * q) < 8 * q := Nat.mod_lt _ (by omega)
      split at h
      · rename_i hlt
        rw [List.mem_singleton] at h
        refine ⟨tid / (8 * q) + 4 * p * i, tid % (8 * q), ?_, hcc, ?_⟩
        · have : 8 * q * nt * (tid / (8 * q) + 4 * p * i) < 8 * q * nt * pm := by
            refine Nat.lt_of_le_of_lt ?_ hlt
            rw [Nat.mul_add, show 8 * q * nt * (4 * p * i) = 8 * q * nt * (4 * p) * i by ring]
            omega
          exact Nat.lt_of_mul_lt_mul_left this
        · rw [h]
          congr 1
          · ring
          · funext e
            rw [show (8 * q + 1) * (tid / (8 * q) + 4 * p * i) + tid % (8 * q)
              = (8 * q + 1) * (tid / (8 * q)) + tid % (8 * q) + (8 * q + 1) * (4 * p) * i by ring]
      · cases h
    · rintro ⟨row, cc, hr, hcc, rfl⟩
      refine ⟨8 * q * (row % (4 * p)) + cc, ?_, row / (4 * p), ?_, ?_⟩
      · have : row % (4 * p) < 4 * p := Nat.mod_lt _ (by omega)
        have : 8 * q * (row % (4 * p) + 1) ≤ 8 * q * (4 * p) := Nat.mul_le_mul_left _ this
        rw [Nat.mul_add] at this
        rw [hthr]; omega
      · apply Nat.div_lt_of_lt_mul
        exact Nat.lt_of_lt_of_le (by omega) (divCeil_spec (by omega : 0 < 4 * p)).1
      · have e1 : (8 * q * (row % (4 * p)) + cc) / (8 * q) = row % (4 * p) := by
          rw [Nat.mul_add_div (by omega), Nat.div_eq_of_lt hcc, Nat.add_zero]
        have e2 : (8 * q * (row % (4 * p)) + cc) % (8 * q) = cc := by
          rw [Nat.mul_add_mod, Nat.mod_eq_of_lt hcc]
        rw [e1, e2]
        have hrow : row % (4 * p) + 4 * p * (row / (4 * p)) = row := Nat.mod_add_div _ _
        have e3 : 8 * q * nt * (row % (4 * p)) + cc + 8 * q * col + 8 * q * nt * (4 * p) * (row / (4 * p))
            = 8 * q * nt * row + (8 * q * col + cc) := by
          conv_rhs => rw [← hrow]
          ring
        have e4 : (8 * q + 1) * (row % (4 * p)) + cc + (8 * q + 1) * (4 * p) * (row / (4 * p))
            = (8 * q + 1) * row + cc := by
          conv_rhs => rw [← hrow]
          ring
        rw [e3, e4, if_pos, List.mem_singleton]
        have := hcell cc hcc
        have : 8 * q * nt * (row + 1) ≤ 8 * q * nt * pm := Nat.mul_le_mul_left _ hr
        rw [Nat.mul_add] at this
        omega
  have haddr : ∀ M n, n < 16 * c.tnb → c.N / 8 * M + (16 * c.tnb * col + n) / 8
      = 8 * q * nt * M + (8 * q * col + n / 8) := by
    intro M n hn
    rw [hN8, hs.tnb, show 16 * (4 * q) * col + n = 8 * (8 * q * col) + n by ring, Nat.mul_add_div (by omega)]
  constructor
  · intro M n hM hn
    have hn' : n < 64 * q := by rw [hs.tnb] at hn; omega
    rw [haddr M n hn]
    have hval : run os out (8 * q * nt * M + (8 * q * col + n / 8))
        = fun e => run ws mem (4 * ((2 * c.tnb + 1) * M + n / 8) + e / 2) (e % 2) := by
      apply run_same
      · exact ⟨_, (hmem _).2 ⟨M, n / 8, hM, by omega, rfl⟩, rfl⟩
      · intro u hu he z
        obtain ⟨row, cc, hr, hcc, rfl⟩ := (hmem u).1 hu
        have he' : 8 * q * nt * row + (8 * q * col + cc) = 8 * q * nt * M + (8 * q * col + n / 8) := he
        have l1 := hcell cc hcc
        have l2 := hcell (n / 8) (by omega)
        have hdiv := congrArg (· / (8 * q * nt)) he'
        have hmod := congrArg (· % (8 * q * nt)) he'
        simp only [Nat.mul_add_div hN0, Nat.mul_add_mod, Nat.div_eq_of_lt l1, Nat.div_eq_of_lt l2,
          Nat.mod_eq_of_lt l1, Nat.mod_eq_of_lt l2, Nat.add_zero] at hdiv hmod
        have : cc = n / 8 := by omega
        show (fun e => run ws mem (4 * ((2 * c.tnb + 1) * row + cc) + e / 2) (e % 2)) = _
        rw [hdiv, this]
    rw [hval]
    dsimp only
    rw [show 4 * ((2 * c.tnb + 1) * M + n / 8) + n % 8 / 2 = 4 * (2 * c.tnb + 1) * M + n / 2 by
      rw [show 4 * (2 * c.tnb + 1) * M = 4 * ((2 * c.tnb + 1) * M) by ring]
      generalize (2 * c.tnb + 1) * M = z
      omega]
    rw [staged_out hs hp mem (by omega) (by omega), ← hres M n hM hn]
    congr 1 <;> omega
  · intro y hy
    apply Verif.Kern.run_other
    intro u hu he
    obtain ⟨row, cc, hr, hcc, rfl⟩ := (hmem u).1 hu
    refine hy row (8 * cc) hr (by rw [hs.tnb]; omega) ?_
    rw [haddr _ _ (by rw [hs.tnb]; omega), show 8 * cc / 8 = cc by omega]
    exact he.symm

/-! ## The whole product -/

/-- **C159.** In exact arithmetic: if every block, for every slice it works on, staged the activations of
its tiles (in any order of the copies, over any previous contents) and dequantised the weights of its tiles,
then whatever the interleaving of the blocks, what is written for tile column `cp` — row block `cp / n_tiles`,
column `cp % n_tiles` — is the product of the activations and the weights over all of `K`. -/
theorem C159_product {e q : Nat} (hs : c.Shape (2 ^ e) q) {G : Grid} (h : G.Ok) {K mb pm lda8 : Nat}
    (hkt : 16 * c.tkb * G.kt = K) (hpm : pm ≤ 16 * mb)
    {act W : Nat → Nat → R} {A : Nat → Nat → R}
    (hA : ∀ b < G.par, ActIn (fun x => A (16 * mb * lda8 * b + x)) lda8 pm K (fun m => act (16 * mb * b + m)))
    (sh : Slice → Nat → Nat → Nat → R) (wop : Slice → Nat → Nat → Nat → Nat → Nat → Nat → Nat → R)
    (slot : Slice → Nat → R)
    (hsh : ∀ b, ∀ s ∈ G.blockSlices b,
      Staged c mb pm lda8 (fun x => A (16 * mb * lda8 * (s.col / G.nt) + x)) (sh s) s.row s.iters)
    (hW : ∀ b, ∀ s ∈ G.blockSlices b, OperandsOf c (s.col % G.nt) (wop s) W s.row s.iters)
    (P : Arith (Nat → Nat → R)) (hadd : P.add = (· + ·)) (hst : P.st = id)
    (hpart : ∀ s M n, P.part s M n
      = if M < pm ∧ n < 16 * c.tnb then sliceAt c (sh s) (wop s) (slot s) s.row s.iters M n else 0)
    {fp32 : Bool} {lock : Int → Int} (hz : ∀ l, lock l = 0) {tmp : Int → Option (Nat → Nat → R)}
    {σ : BSt (Nat → Nat → R)} (hr : BReach P fp32 (BSt.start _ G lock tmp) σ) (hf : σ.Finished)
    (cp : Nat) (hc : cp < G.cols) :
    ∃ v, σ.res cp = some v ∧ ∀ M n, M < pm → n < 16 * c.tnb →
      v M n = ∑ k ∈ Finset.range K,
        act (16 * mb * (cp / G.nt) + M) k * W k (16 * c.tnb * (cp % G.nt) + n) := by
  have hk0 : 0 < G.kt := h.kt
  let f : Nat → Nat → Nat → R := fun t M n => if M < pm ∧ n < 16 * c.tnb then
    ∑ k ∈ Finset.range (16 * c.tkb), act (16 * mb * (t / G.kt / G.nt) + M) (16 * c.tkb * (t % G.kt) + k)
      * W (16 * c.tkb * (t % G.kt) + k) (16 * c.tnb * (t / G.kt % G.nt) + n) else 0
  have hdm : ∀ col r, r < G.kt → (G.kt * col + r) / G.kt = col ∧ (G.kt * col + r) % G.kt = r := by
    intro col r hr
    exact ⟨by rw [Nat.mul_add_div hk0, Nat.div_eq_of_lt hr, Nat.add_zero], by
      rw [Nat.mul_add_mod, Nat.mod_eq_of_lt hr]⟩
  have hP : ∀ b, ∀ s ∈ G.blockSlices b,
      P.part s = ∑ i ∈ Finset.range s.iters, f (G.kt * s.col + s.row + i) := by
    intro b s hmem
    obtain ⟨a2, a3, a4, -⟩ := (G.block_shape h b).1 s hmem
    funext M n
    rw [hpart, Finset.sum_apply, Finset.sum_apply]
    by_cases hin : M < pm ∧ n < 16 * c.tnb
    · have hpar : s.col / G.nt < G.par := Nat.div_lt_of_lt_mul a2
      rw [if_pos hin, C159_slice hs (hA _ hpar) (by rw [← hkt]; exact Nat.mul_le_mul_left _ a4) (hsh b s hmem)
        (hW b s hmem) (slot s) hin.1 (by omega) hin.2]
      apply Finset.sum_congr rfl
      intro i hi
      rw [Finset.mem_range] at hi
      obtain ⟨e1, e2⟩ := hdm s.col (s.row + i) (by omega)
      rw [← Nat.add_assoc] at e1 e2
      show _ = if M < pm ∧ n < 16 * c.tnb then _ else _
      rw [if_pos hin, e1, e2]
    · rw [if_neg hin]
      symm
      apply Finset.sum_eq_zero
      intro i _
      exact if_neg hin
  refine ⟨_, C154_column_is_full_sum h f P hadd hst hP hz hr hf cp hc, ?_⟩
  intro M n hM hn
  rw [Finset.sum_apply, Finset.sum_apply, ← hkt]
  have hb := Verif.Shard.sum_blocks (fun k => act (16 * mb * (cp / G.nt) + M) k
    * W k (16 * c.tnb * (cp % G.nt) + n)) G.kt (16 * c.tkb)
  rw [Nat.mul_comm (16 * c.tkb), ← hb]
  apply Finset.sum_congr rfl
  intro r hr'
  rw [Finset.mem_range] at hr'
  obtain ⟨e1, e2⟩ := hdm cp r hr'
  show (if M < pm ∧ n < 16 * c.tnb then _ else _) = _
  rw [if_pos ⟨hM, hn⟩, e1, e2, Nat.mul_comm r]

/-! ## Non-vacuity -/

/-- 128 threads as two rows of two warps; tiles of 64 by 128. -/
def gemmEx : GemmCfg := ⟨256, 128, 4, 8, 2⟩

theorem gemmEx_shape : gemmEx.Shape (2 ^ 1) 2 :=
  ⟨rfl, rfl, rfl, by decide, by decide, by decide, by decide⟩

/-- Stages and operands exist for any activations and weights. -/
example (act W : Nat → Nat → Int) (mb pm : Nat) (r0 n : Nat) :
    ∃ (A : Nat → Nat → Int) (sh : Nat → Nat → Nat → Int) (wop : Nat → Nat → Nat → Nat → Nat → Nat → Nat → Int),
      ActIn A 32 pm 256 act ∧ Staged gemmEx mb pm 32 A sh r0 n ∧ OperandsOf gemmEx 1 wop W r0 n := by
  refine ⟨fun x e => act (x / 32) (8 * (x % 32) + e),
    fun t => run (aWrites gemmEx mb pm 32 (fun x e => act (x / 32) (8 * (x % 32) + e)) t) (fun _ _ => 0),
    fun t tid i j f r h => W (opRow gemmEx t tid i r h) (opCol gemmEx 1 tid j f), ?_, ?_, ?_⟩
  · intro m k _ hk
    show act _ _ = _
    rw [show (32 * m + k / 8) / 32 = m by omega, show 8 * ((32 * m + k / 8) % 32) + k % 8 = k by omega]
  · intro t _ _
    exact ⟨_, _, List.Perm.refl _, rfl⟩
  · intro t tid i j f r h _ _ _ _
    rfl

/-- Four rows of warps, none lost, whatever shared memory held before. -/
example : blockReduce (R := Int) 4 (fun r => [1, 10, 100, 1000].getD r 0) (fun _ => 77) = 1111 := by decide +kernel

/-- The swizzle of the activations is not the identity. -/
example : transformA 8 9 = 8 ∧ transformA 8 8 = 9 := by decide

end Verif.Marlin
