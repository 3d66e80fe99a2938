import Verif.Kern.PropsConv

/-! C128: average pooling. -/

namespace Verif.Kern

open Verif.Tensor (numel InB lin lin_lt)

/-- The positions of window `t` that belong to the input. -/
def realSet (len k stride p t : Nat) : Finset Nat :=
  (Finset.range k).filter fun j => p ≤ t * stride + j ∧ t * stride + j - p < len

theorem foldl_count (P : Nat → Prop) [DecidablePred P] (c : Bool) (k : Nat) :
    (List.range k).foldl (fun n j => if P j then n + 1 else if c then n + 1 else n) 0 =
      if c then k else ((Finset.range k).filter P).card := by
  induction k with
  | zero => cases c <;> simp
  | succ k ih =>
    rw [List.range_succ, List.foldl_append, ih]
    simp only [List.foldl_cons, List.foldl_nil]
    rw [Finset.range_add_one, Finset.filter_insert]
    by_cases h : P k
    · rw [if_pos h, if_pos h, Finset.card_insert_of_notMem (by simp)]
      cases c <;> simp
    · rw [if_neg h, if_neg h]
      cases c <;> simp

/-- What the code computes: the sum over the window, divided by its size or by the number of input positions in it. -/
noncomputable def poolCode (countPad : Bool) (x : Ten ℝ) (len k stride p b c t : Nat) : ℝ :=
  (∑ j ∈ Finset.range k, padAt len p (fun q => x.get [b, c, q]) (t * stride + j)) /
    ((if countPad then k else (realSet len k stride p t).card : Nat) : ℝ)

theorem poolCell_run {o : PoolOpts} {B C L T : Nat} {x : Ten ℝ} (hx : x.Is [B, C, L]) {b c t : Nat} (hb : b < B) (hc : c < C)
    (ht : t < T) (m : Nat → ℝ) (hm : m (b * (C * T) + (c * T + t)) = 0) :
    run (poolCell o C L T x.data (b * (C * T) + (c * T + t))) m (b * (C * T) + (c * T + t)) =
      poolCode o.countPad x L o.k o.stride o.padding b c t := by
  unfold poolCell poolCode
  obtain ⟨d1, d2, d3⟩ := decode3 (b := b) hc ht
  simp only [d1, d2, d3]
  have hq : ∀ j : Nat, (t : Int) * o.stride - o.padding + j = ((t * o.stride + j : Nat) : Int) - o.padding := by
    intro j; push_cast; ring
  have hsum : each o.k (fun k s => if 0 ≤ (t : Int) * o.stride - o.padding + k ∧ (t : Int) * o.stride - o.padding + k < L then
      s + x.data (b * (C * L) + c * L + ((t : Int) * o.stride - o.padding + k).toNat) else s) (0 : ℝ) =
      ∑ j ∈ Finset.range o.k, padAt L o.padding (fun q => x.get [b, c, q]) (t * o.stride + j) := by
    rw [each_add (g := fun j => padAt L o.padding (fun q => x.get [b, c, q]) (t * o.stride + j)), zero_add]
    intro j hj s
    rw [padAt_int, hq]
    by_cases hin : 0 ≤ ((t * o.stride + j : Nat) : Int) - o.padding ∧ ((t * o.stride + j : Nat) : Int) - o.padding < L
    · rw [if_pos hin, if_pos hin, hx.get (by exact ⟨hb, hc, by omega, trivial⟩), lin3, Nat.add_assoc]
    · rw [if_neg hin, if_neg hin, add_zero]
  rw [hsum]
  have hcount : (List.range o.k).foldl (fun n k => if 0 ≤ (t : Int) * o.stride - o.padding + (k : Nat) ∧
      (t : Int) * o.stride - o.padding + (k : Nat) < L then n + 1 else if o.countPad = true then n + 1 else n) 0 =
      if o.countPad then o.k else (realSet L o.k o.stride o.padding t).card := by
    rw [foldl_count (fun k : Nat => 0 ≤ (t : Int) * o.stride - o.padding + (k : Nat) ∧
      (t : Int) * o.stride - o.padding + (k : Nat) < L)]
    split
    · rfl
    · unfold realSet
      congr 1
      refine Finset.filter_congr fun j _ => ?_
      rw [hq]
      omega
  rw [hcount]
  generalize (if o.countPad = true then o.k else (realSet L o.k o.stride o.padding t).card) = n
  by_cases hpos : 0 < n
  · rw [if_pos hpos]
    simp [run, Upd.put, Nat.add_assoc]
  · have : n = 0 := by omega
    subst this
    rw [if_neg hpos]
    simp [run, hm]

/-- What an accepted call computes, in every mode. -/
theorem pool_computes (o : PoolOpts) (x : Ten ℝ) (B C L T : Nat) (hx : x.Is [B, C, L])
    (hT : asSize o.stride (poolLen o L) = .ok T) :
    ∃ ss, pool o x = .ok ([B, C, T], ss) ∧ Yields ss [B, C, T] fun ix =>
      poolCode o.countPad x L o.k o.stride o.padding (ix.getD 0 0) (ix.getD 1 0) (ix.getD 2 0) := by
  have hc : pool o x = .ok ([B, C, T], [[(List.range (B * C * T)).map fun i => Upd.put i 0],
      (List.range (B * C * T)).map (poolCell o C L T x.data)]) := by
    unfold pool
    rw [hx.1]
    dsimp only
    rw [hT]
    rfl
  refine ⟨_, hc, ?_⟩
  intro m m' hex
  have hin : ∀ i < B * C * T, ∀ u ∈ poolCell o C L T x.data i, u.addr = i := by
    intro i hi u hu
    unfold poolCell at hu
    dsimp only at hu
    rw [foldl_count (fun k : Nat => 0 ≤ ((i % T : Nat) : Int) * o.stride - o.padding + (k : Nat) ∧
      ((i % T : Nat) : Int) * o.stride - o.padding + (k : Nat) < L)] at hu
    by_cases hpos : 0 < (if o.countPad = true then o.k else ((Finset.range o.k).filter (fun k : Nat =>
      0 ≤ ((i % T : Nat) : Int) * o.stride - o.padding + (k : Nat) ∧
      ((i % T : Nat) : Int) * o.stride - o.padding + (k : Nat) < L)).card)
    · rw [if_pos hpos] at hu
      simp only [List.mem_singleton] at hu
      subst hu
      simp only [Upd.put]
      have h1 := Nat.div_add_mod i (C * T)
      have h2 := Nat.div_add_mod (i % (C * T)) T
      rw [Nat.mod_mul_left_mod] at h2
      rw [Nat.mul_comm (i / (C * T)), Nat.mul_comm (i % (C * T) / T)]
      omega
    · rw [if_neg hpos] at hu
      cases hu
  obtain ⟨h1, h2⟩ := Exec.cells hin hex
  refine ⟨?_, fun y hy => h2 y (by simpa [numel, Nat.mul_assoc] using hy)⟩
  intro ix hix
  obtain ⟨b, c, t, rfl, hb, hcc, ht⟩ := inB3 hix
  rw [out_get hix]
  have hlt := lin_lt hix
  rw [lin3] at hlt ⊢
  obtain ⟨m1, hz, hm⟩ := h1 _ (by simpa [numel, Nat.mul_assoc] using hlt)
  rw [hm, poolCell_run hx hb hcc ht m1 hz]
  rfl

/-- Without padding positions in the divisor the code is the mean. -/
theorem poolCode_real (x : Ten ℝ) (L k stride p b c t : Nat) :
    poolCode false x L k stride p b c t = poolAt false x L k stride p b c t := by
  unfold poolCode poolAt poolSet
  simp only [Bool.false_eq_true, if_false]
  congr 1
  symm
  refine Finset.sum_subset (Finset.filter_subset _ _) fun j hj hn => ?_
  unfold padAt
  rw [if_neg]
  intro h
  exact hn (Finset.mem_filter.mpr ⟨hj, h⟩)

/-- With them it is the mean when the window fits. -/
theorem poolCode_fits (x : Ten ℝ) (L k stride p b c t : Nat) (h : t * stride + (k - 1) < L + 2 * p) :
    poolCode true x L k stride p b c t = poolAt true x L k stride p b c t := by
  unfold poolCode poolAt
  have : poolSet true L k stride p t = Finset.range k := by
    unfold poolSet
    refine Finset.filter_true_of_mem fun j hj => ?_
    have := Finset.mem_range.mp hj
    simp only [if_true]
    omega
  rw [this]
  simp

/-- `C128`, rounding down: for a contiguous input and a window that fits into the padded line, one output per window position,
each the mean over the window, for both conventions of the divisor. -/
theorem C128_avgpool_floor (o : PoolOpts) (x : Ten ℝ) (B C L : Nat) (hx : x.Is [B, C, L]) (hc : o.ceil = false) (hk : 0 < o.k)
    (hs : 0 < o.stride) (hf : o.k ≤ L + 2 * o.padding) :
    ∃ T ss, pool o x = .ok ([B, C, T], ss) ∧ PoolLen o.ceil T L o.k o.stride o.padding ∧ Yields ss [B, C, T] fun ix =>
      poolAt o.countPad x L o.k o.stride o.padding (ix.getD 0 0) (ix.getD 1 0) (ix.getD 2 0) := by
  have hf' : 1 * (o.k - 1) < L + 2 * o.padding := by omega
  obtain ⟨T, hTe⟩ : ∃ T, T = (L + 2 * o.padding - 1 * (o.k - 1) - 1) / o.stride + 1 := ⟨_, rfl⟩
  have hlen : OutLen T L o.k o.stride o.padding 1 := hTe ▸ outLen_fits hs hf'
  have hT : asSize o.stride (poolLen o L) = .ok T := by
    have : poolLen o L = (T : Int) := by
      rw [hTe, ← convLen_fits hk hf']
      unfold poolLen convLen
      rw [hc]
      simp only [Bool.false_eq_true, if_false]
      congr 2
      push_cast
      ring
    rw [this, asSize_ok hs]
  obtain ⟨ss, h1, h2⟩ := pool_computes o x B C L T hx hT
  refine ⟨T, ss, h1, by rw [hc]; exact hlen, ?_⟩
  intro m m' hex
  obtain ⟨h3, h4⟩ := h2 m m' hex
  refine ⟨fun ix hix => ?_, h4⟩
  rw [h3 ix hix]
  obtain ⟨b, c, t, rfl, hb, hcc, ht⟩ := inB3 hix
  simp only [List.getD_eq_getElem?_getD, List.getElem?_cons_succ, List.getElem?_cons_zero, Option.getD_some]
  cases hcp : o.countPad with
  | false => exact poolCode_real ..
  | true =>
    have := (hlen t).mp ht
    exact poolCode_fits _ _ _ _ _ _ _ _ (by omega)

/-- The number of outputs when rounding up. -/
theorem poolLen_ceil {o : PoolOpts} {L : Nat} (hc : o.ceil = true) (hs : 0 < o.stride) (hf : o.k ≤ L + 2 * o.padding) :
    poolLen o L = (((L + 2 * o.padding - o.k + (o.stride - 1)) / o.stride + 1 : Nat) : Int) := by
  unfold poolLen
  rw [hc]
  simp only [if_true]
  have e : (-((L : Int) + 2 * o.padding - o.k)) = -((L + 2 * o.padding - o.k : Nat) : Int) := by omega
  rw [e, Int.fdiv_eq_ediv_of_nonneg _ (by omega)]
  generalize L + 2 * o.padding - o.k = n
  have : -(-(n : Int) / (o.stride : Int)) = (((n + (o.stride - 1)) / o.stride : Nat) : Int) := by
    have h1 := Nat.div_add_mod (n + (o.stride - 1)) o.stride
    have h2 := Nat.mod_lt (n + (o.stride - 1)) hs
    generalize (n + (o.stride - 1)) / o.stride = q at h1 ⊢
    generalize (n + (o.stride - 1)) % o.stride = r at h1 h2
    have : -(n : Int) / (o.stride : Int) = -(q : Int) := by
      rw [Int.ediv_eq_iff_of_pos (by omega)]
      have h3 : (n : Int) + ((o.stride : Int) - 1) = o.stride * q + r := by
        have : ((o.stride - 1 : Nat) : Int) = (o.stride : Int) - 1 := by omega
        rw [← this]
        exact_mod_cast h1.symm
      constructor <;> nlinarith
    rw [this]; omega
  rw [this]
  push_cast
  rfl

theorem lt_ceil {n s t : Nat} (hs : 0 < s) : t < (n + (s - 1)) / s + 1 ↔ t = 0 ∨ (t - 1) * s < n := by
  rw [Nat.lt_add_one_iff, Nat.le_div_iff_mul_le hs]
  cases t with
  | zero => simp
  | succ t =>
    simp only [Nat.add_sub_cancel, Nat.add_mul]
    omega

/-- `C128`, rounding up, the part that holds: padding positions are not counted, and the last window starts before the right
padding, which is always so when stride and padding together do not exceed the window. -/
theorem C128_avgpool_ceil_partial (o : PoolOpts) (x : Ten ℝ) (B C L : Nat) (hx : x.Is [B, C, L]) (hc : o.ceil = true)
    (hcp : o.countPad = false) (hs : 0 < o.stride) (hf : o.k ≤ L + 2 * o.padding) (hL : 0 < L)
    (hsk : o.stride + o.padding ≤ o.k) :
    ∃ T ss, pool o x = .ok ([B, C, T], ss) ∧ PoolLen o.ceil T L o.k o.stride o.padding ∧ Yields ss [B, C, T] fun ix =>
      poolAt o.countPad x L o.k o.stride o.padding (ix.getD 0 0) (ix.getD 1 0) (ix.getD 2 0) := by
  have hT := poolLen_ceil hc hs hf
  have hT' : asSize o.stride (poolLen o L) = .ok ((L + 2 * o.padding - o.k + (o.stride - 1)) / o.stride + 1) := by
    rw [hT]; exact asSize_ok hs
  obtain ⟨ss, h1, h2⟩ := pool_computes o x B C L _ hx hT'
  refine ⟨_, ss, h1, ?_, ?_⟩
  · rw [hc]
    unfold PoolLen
    rw [if_pos rfl]
    intro t
    rw [lt_ceil hs]
    constructor
    · intro h
      refine ⟨by omega, ?_⟩
      rcases h with rfl | h
      · omega
      · cases t with
        | zero => omega
        | succ t =>
          simp only [Nat.add_sub_cancel] at h
          rw [Nat.add_mul]
          omega
    · rintro ⟨h, -⟩
      omega
  · intro m m' hex
    obtain ⟨h3, h4⟩ := h2 m m' hex
    refine ⟨fun ix hix => ?_, h4⟩
    rw [h3 ix hix, hcp]
    exact poolCode_real ..

/-- `C128` fails: rounding up with the default divisor. The last window of `[1, 2, 3]` with window and stride two holds only
`3`; the code divides by two. -/
theorem C128_ceil_divisor_violated :
    let o : PoolOpts := ⟨2, 2, 0, true, true⟩
    let x : Ten ℝ := ⟨[1, 1, 3], [3, 3, 1], fun i => i + 1⟩
    poolAt true x 3 2 2 0 0 0 1 = 3 ∧ ∃ ss, pool o x = .ok ([1, 1, 2], ss) ∧
      ∀ m m', Exec ss m m' → (outRows [1, 1, 2] m').get [0, 0, 1] = 3 / 2 := by
  constructor
  · have : poolSet true 3 2 2 0 1 = {0} := by decide
    unfold poolAt
    rw [this]
    simp [padAt, Ten.get, pos]
    norm_num
  · obtain ⟨ss, h1, h2⟩ := pool_computes ⟨2, 2, 0, true, true⟩ ⟨[1, 1, 3], [3, 3, 1], fun i => (i : ℝ) + 1⟩ 1 1 3 2 ⟨rfl, rfl⟩ rfl
    refine ⟨ss, h1, fun m m' hex => ?_⟩
    refine ((h2 m m' hex).1 [0, 0, 1] (by simp [InB])).trans ?_
    simp [poolCode, padAt, Ten.get, pos, Finset.sum_range_succ]
    norm_num

/-- `C128` fails: rounding up with a stride larger than the window gives a further output for a window that starts behind the
input, and its value is zero. -/
theorem C128_ceil_extra_violated (x : Ten ℝ) (hx : x.Is [1, 1, 2]) :
    let o : PoolOpts := ⟨1, 3, 0, true, true⟩
    ¬ PoolLen true 2 2 1 3 0 ∧ ∃ ss, pool o x = .ok ([1, 1, 2], ss) ∧
      ∀ m m', Exec ss m m' → (outRows [1, 1, 2] m').get [0, 0, 1] = 0 := by
  constructor
  · intro h
    have := (h 1).mp (by omega)
    omega
  · obtain ⟨ss, h1, h2⟩ := pool_computes ⟨1, 3, 0, true, true⟩ x 1 1 2 2 hx rfl
    refine ⟨ss, h1, fun m m' hex => ?_⟩
    refine ((h2 m m' hex).1 [0, 0, 1] (by simp [InB])).trans ?_
    simp [poolCode, padAt]

/-- `C128` fails: a window larger than the padded line, by less than the stride, is accepted when rounding down. -/
theorem C128_no_window_violated (o : PoolOpts) (x : Ten ℝ) (B C L : Nat) (hx : x.Is [B, C, L]) (hc : o.ceil = false)
    (hf : L + 2 * o.padding < o.k) (hs : o.k < L + 2 * o.padding + o.stride) :
    (∃ ss, pool o x = .ok ([B, C, 1], ss)) ∧ ¬ PoolLen false 1 L o.k o.stride o.padding := by
  constructor
  · have hl : poolLen o L = 1 := by
      rw [← convLen_short (dim := L) (k := o.k) (stride := o.stride) (p := o.padding) (dil := 1) (by omega) (by omega) (by omega)]
      unfold poolLen convLen
      rw [hc]
      simp only [Bool.false_eq_true, if_false]
      congr 2
      push_cast
      ring
    have a1 := asSize_ok (stride := o.stride) (n := 1) (by omega)
    rw [show ((1 : Nat) : Int) = 1 from rfl, ← hl] at a1
    obtain ⟨ss, h1, -⟩ := pool_computes o x B C L 1 hx a1
    exact ⟨ss, h1⟩
  · intro h
    have h : OutLen 1 L o.k o.stride o.padding 1 := h
    have := (h 0).mp (by omega)
    omega

/-- Refused: a wrong rank. -/
theorem C128_refuses (o : PoolOpts) (x : Ten ℝ) (h : x.shape.length ≠ 3) : pool o x = .error .assertion := by
  unfold pool
  split
  · rename_i he
    rw [he] at h
    simp at h
  · rfl

/-- The hypotheses of `C128_avgpool_floor` are met: `[1, 2, 3, 4]`, window three, stride two, padding one, padding not counted:
`(1 + 2) / 2` and `(2 + 3 + 4) / 3`. -/
example : ∃ ss, pool ⟨3, 2, 1, false, false⟩ ⟨[1, 1, 4], [4, 4, 1], fun i => (i : ℝ) + 1⟩ = .ok ([1, 1, 2], ss) ∧
    ∀ m m', Exec ss m m' → (outRows [1, 1, 2] m').get [0, 0, 0] = 3 / 2 ∧ (outRows [1, 1, 2] m').get [0, 0, 1] = 3 := by
  obtain ⟨T, ss, h, hT, hc⟩ := C128_avgpool_floor ⟨3, 2, 1, false, false⟩ ⟨[1, 1, 4], [4, 4, 1], fun i => (i : ℝ) + 1⟩ 1 1 4
    ⟨rfl, rfl⟩ rfl (by decide) (by decide) (by decide)
  have hT : OutLen T 4 3 2 1 1 := hT
  have hT2 : T = 2 := by
    have h1 := (hT 1).mpr (by decide)
    have h2 := (hT 2).not.mpr (by decide)
    omega
  subst hT2
  refine ⟨ss, h, fun m m' hex => ?_⟩
  obtain ⟨hv, -⟩ := hc m m' hex
  have s0 : poolSet false 4 3 2 1 0 = {1, 2} := by decide
  have s1 : poolSet false 4 3 2 1 1 = {0, 1, 2} := by decide
  constructor
  · refine (hv [0, 0, 0] (by simp [InB])).trans ?_
    simp [poolAt, s0, padAt, Ten.get, pos]
    norm_num
  · refine (hv [0, 0, 1] (by simp [InB])).trans ?_
    simp [poolAt, s1, padAt, Ten.get, pos]
    norm_num

/-- The hypotheses of `C128_avgpool_ceil_partial` are met, with a last window that overhangs. -/
example (x : Ten ℝ) (hx : x.Is [2, 3, 5]) : ∃ T ss, pool ⟨2, 2, 0, true, false⟩ x = .ok ([2, 3, T], ss) ∧ 2 < T := by
  obtain ⟨T, ss, h, hT, -⟩ := C128_avgpool_ceil_partial ⟨2, 2, 0, true, false⟩ x 2 3 5 hx rfl rfl (by decide) (by decide) (by decide)
    (by decide)
  exact ⟨T, ss, h, (hT 2).mpr (by decide)⟩

end Verif.Kern
