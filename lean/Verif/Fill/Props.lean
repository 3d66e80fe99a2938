import Verif.Fill.Model
import Mathlib.NumberTheory.Multiplicity
import Mathlib.RingTheory.Coprime.Lemmas

/-!
# What a user of tensor creation, casts and scatters relies on (C178-C180)
-/

namespace Verif.Fill

open Verif.Tensor

variable {α β : Type}

/-! ## C178: creation -/

theorem blocks_store (N : Nat) (v : Nat → α) (d : Nat → Option α) (m : Nat) :
    (List.range m).foldl (fun d b => store d (b * N) N fun j => v (b * N + j)) d = store d 0 (m * N) v := by
  induction m with
  | zero => funext k; simp [store]
  | succ m ih =>
    rw [List.range_succ, List.foldl_append, ih, List.foldl_cons, List.foldl_nil]
    funext k
    unfold store
    rw [Nat.succ_mul]
    by_cases h1 : m * N ≤ k ∧ k < m * N + N
    · rw [if_pos h1, if_pos (by omega)]
      show some (v (m * N + (k - m * N))) = _
      rw [show m * N + (k - m * N) = k - 0 by omega]
    · rw [if_neg h1]
      by_cases h2 : 0 ≤ k ∧ k < 0 + m * N
      · rw [if_pos h2, if_pos (by omega)]
      · rw [if_neg h2, if_neg (by omega)]

theorem store_append (d : Nat → Option α) (m n : Nat) (v : Nat → α) : store (store d 0 m v) m n (fun r => v (m + r)) = store d 0 (m + n) v := by
  funext k
  unfold store
  by_cases h1 : m ≤ k ∧ k < m + n
  · rw [if_pos h1, if_pos (by omega)]
    show some (v (m + (k - m))) = _
    rw [show m + (k - m) = k - 0 by omega]
  · rw [if_neg h1]
    by_cases h2 : 0 ≤ k ∧ k < 0 + m
    · rw [if_pos h2, if_pos (by omega)]
    · rw [if_neg h2, if_neg (by omega)]

/-- **C178** Zeros, ones, a value: whatever the vector width, every element has the value and nothing else is written. -/
theorem C178_value (N count : Nat) (v : α) (d : Nat → Option α) (k : Nat) : fillValue N count v d k = if k < count then some v else d k := by
  unfold fillValue
  rw [blocks_store N (fun _ => v) d (count / N), store_append d (count / N * N) _ fun _ => v]
  have := Nat.div_mul_le_self count N
  unfold store
  rw [show count / N * N + (count - count / N * N) = count by omega]
  simp

theorem arangeVec_eq (N n : Nat) (start step : ℚ) (d : Nat → Option ℚ) :
    arangeVec N n start step d = store d 0 n fun i => start + (i : ℚ) * step := by
  have key : ∀ m, (List.range m).foldl (fun (s : (Nat → Option ℚ) × (Nat → ℚ)) b => (store s.1 (b * N) N s.2, fun j => s.2 j + step * N))
      (d, fun j => start + j * step) = (store d 0 (m * N) fun i => start + (i : ℚ) * step, fun j => start + ((m * N + j : Nat) : ℚ) * step) := by
    intro m
    induction m with
    | zero =>
      refine Prod.ext ?_ ?_
      · funext k; simp [store]
      · simp
    | succ m ih =>
      rw [List.range_succ, List.foldl_append, ih, List.foldl_cons, List.foldl_nil]
      refine Prod.ext ?_ ?_
      · have := store_append d (m * N) N fun i => start + (i : ℚ) * step
        dsimp only at this ⊢
        rw [this, Nat.succ_mul]
      · funext j
        dsimp only
        push_cast
        ring
  unfold arangeVec
  dsimp only
  rw [key]
  dsimp only
  rw [store_append d (n / N * N) _ fun i => start + (i : ℚ) * step]
  have := Nat.div_mul_le_self n N
  rw [show n / N * N + (n - n / N * N) = n by omega]

/-- A position before the end, in the direction of the step. -/
def Before (stop step x : ℚ) : Prop := (0 < step ∧ x < stop) ∨ (step < 0 ∧ stop < x)

theorem before_iff {start stop step : ℚ} (hs : step ≠ 0) (i : Nat) : Before stop step (start + i * step) ↔ (i : ℚ) < (stop - start) / step := by
  unfold Before
  rcases lt_or_gt_of_ne hs with h | h
  · rw [lt_div_iff_of_neg h]
    constructor
    · rintro (⟨h1, _⟩ | ⟨_, h2⟩)
      · linarith
      · linarith
    · intro h2
      exact Or.inr ⟨h, by linarith⟩
  · rw [lt_div_iff₀ h]
    constructor
    · rintro (⟨_, h2⟩ | ⟨h1, _⟩)
      · linarith
      · linarith
    · intro h2
      exact Or.inl ⟨h, by linarith⟩

theorem arangeLen_eq {start stop step : ℚ} (hs : step ≠ 0) (hq : 0 ≤ (stop - start) / step) :
    arangeLen start stop step = some ⌊(stop - start) / step⌋₊ := by
  unfold arangeLen trunc
  rw [if_neg hs, if_pos hq, if_neg (by have := Int.floor_nonneg.mpr hq; omega)]
  rfl

theorem arangeFill_eq {start stop step : ℚ} (hs : step ≠ 0) {c : Nat} (hc : (c : ℚ) ≤ (stop - start) / step) : arangeFill c start stop step = c := by
  unfold arangeFill
  generalize hq : (stop - start) / step = q at hc
  have hmul : q * step = stop - start := by rw [← hq]; field_simp
  rcases Nat.eq_zero_or_pos c with rfl | hc0
  · split_ifs <;> simp
  have hq0 : 0 < q := lt_of_lt_of_le (by exact_mod_cast hc0) hc
  have hceil : (⌈q⌉₊ : ℚ) - 1 < q := by have := Nat.ceil_lt_add_one hq0.le; linarith
  have hle : c ≤ ⌈q⌉₊ := by exact_mod_cast hc.trans (Nat.le_ceil q)
  rcases lt_or_gt_of_ne hs with h | h
  · have h1 : stop < start := by nlinarith
    rw [if_pos (Or.inr ⟨h, h1⟩)]
    dsimp only
    rw [if_pos hq0, if_neg (by linarith), if_neg (by push Not; nlinarith), min_eq_right hle]
  · have h1 : start < stop := by nlinarith
    rw [if_pos (Or.inl ⟨h, h1⟩)]
    dsimp only
    rw [if_pos hq0, if_pos h, if_neg (by push Not; nlinarith), min_eq_right hle]

/-- **C178** `arange` in the right direction: the tensor has as many elements as whole steps fit between start and end; every
element, written whatever the vector width, is the start plus its number of steps, and lies before the end. -/
theorem C178_arange (N : Nat) {start stop step : ℚ} (hs : step ≠ 0) (hq : 0 ≤ (stop - start) / step) :
    ∃ d, arange N start stop step = some (⌊(stop - start) / step⌋₊, d) ∧ ∀ i, i < ⌊(stop - start) / step⌋₊ →
      d i = some (start + i * step) ∧ Before stop step (start + i * step) := by
  unfold arange
  rw [arangeLen_eq hs hq, Option.map_some]
  refine ⟨_, rfl, fun i hi => ?_⟩
  rw [arangeFill_eq hs (Nat.floor_le hq), arangeVec_eq, before_iff hs]
  constructor
  · unfold store
    rw [if_pos ⟨Nat.zero_le _, by omega⟩, Nat.sub_zero]
  · have h1 : ((i + 1 : Nat) : ℚ) ≤ (stop - start) / step := le_trans (by exact_mod_cast hi) (Nat.floor_le hq)
    push_cast at h1
    linarith

/-- **C178** The same for the other types, every element converted. -/
theorem C178_arange_int (conv : ℚ → β) {start stop step : ℚ} (hs : step ≠ 0) (hq : 0 ≤ (stop - start) / step) :
    ∃ d, arangeInt conv start stop step = some (⌊(stop - start) / step⌋₊, d) ∧ ∀ i, i < ⌊(stop - start) / step⌋₊ → d i = some (conv (start + i * step)) := by
  unfold arangeInt
  rw [arangeLen_eq hs hq, Option.map_some]
  refine ⟨_, rfl, fun i hi => ?_⟩
  rw [arangeFill_eq hs (Nat.floor_le hq)]
  unfold arangeScalar store
  rw [if_pos ⟨Nat.zero_le _, by omega⟩, Nat.sub_zero]

/-- **C178** Exactly when the step divides the interval are these all the values before the end. -/
theorem C178_arange_all {start stop step : ℚ} (hs : step ≠ 0) (hq : 0 ≤ (stop - start) / step) :
    (∀ i : Nat, Before stop step (start + i * step) → i < ⌊(stop - start) / step⌋₊) ↔ ∃ n : Nat, stop = start + n * step := by
  have hstop : ∀ n : Nat, stop = start + n * step ↔ (stop - start) / step = n := by
    intro n
    rw [div_eq_iff hs]
    constructor <;> intro h <;> linarith
  constructor
  · intro h
    refine ⟨⌊(stop - start) / step⌋₊, (hstop _).mpr ?_⟩
    by_contra hne
    have hlt : (⌊(stop - start) / step⌋₊ : ℚ) < (stop - start) / step := lt_of_le_of_ne (Nat.floor_le hq) fun e => hne e.symm
    exact lt_irrefl _ (h _ ((before_iff hs _).mpr hlt))
  · rintro ⟨n, hn⟩ i hi
    rw [before_iff hs, (hstop n).mp hn] at hi
    rw [(hstop n).mp hn, Nat.floor_natCast]
    exact_mod_cast hi

/-- **C178** Otherwise the last value before the end is missing (0, 2, 4 of 0, 1, ..., 4 in steps of two come out as 0, 2). -/
theorem C178_arange_last_violated (N : Nat) {start stop step : ℚ} (hs : step ≠ 0) (hq : 0 ≤ (stop - start) / step) (hd : ∀ n : Nat, stop ≠ start + n * step) :
    ∃ c d, arange N start stop step = some (c, d) ∧ Before stop step (start + c * step) := by
  obtain ⟨d, h, _⟩ := C178_arange N hs hq
  refine ⟨_, d, h, ?_⟩
  rw [before_iff hs]
  refine lt_of_le_of_ne (Nat.floor_le hq) fun e => hd ⌊(stop - start) / step⌋₊ ?_
  rw [e, div_mul_cancel₀ _ hs]
  ring

example : arangeLen 0 5 2 = some 2 ∧ Before 5 2 (0 + (2 : Nat) * 2) := by
  refine ⟨?_, Or.inl ⟨by norm_num, by norm_num⟩⟩
  rw [arangeLen_eq (by norm_num) (by norm_num), show ((5 - 0) / 2 : ℚ) = 5 / 2 by norm_num]
  congr 1
  rw [Nat.floor_eq_iff (by norm_num)]
  norm_num

theorem mod_wrap (a b s : Nat) : ((a * s) % 18446744073709551616 + b) % 18446744073709551616 % 2147483648 = (a * s + b) % 2147483648 := by
  omega

theorem lcg_eq (s : Nat) : lcg s = (1103515245 * s + 12345) % 2147483648 := mod_wrap _ _ _

theorem lcg_lt (s : Nat) : lcg s < 2147483648 := by rw [lcg_eq]; exact Nat.mod_lt _ (by norm_num)

theorem iter_lt (n s : Nat) : lcg^[n + 1] s < 2147483648 := by rw [Function.iterate_succ_apply']; exact lcg_lt _

/-- **C178** Random numbers lie between start and end, the ends included. -/
theorem C178_random_range {start stop : ℚ} (h : start ≤ stop) (seed i : Nat) :
    (start ≤ randomX86 start stop seed i ∧ randomX86 start stop seed i ≤ stop) ∧ (start ≤ randomArm start stop seed i ∧ randomArm start stop seed i ≤ stop) := by
  have key : ∀ s, s < 2147483648 → start ≤ scale start stop s ∧ scale start stop s ≤ stop := by
    intro s hs
    unfold scale
    have h1 : (0 : ℚ) ≤ (s : ℚ) / 2147483647 := by positivity
    have h2 : (s : ℚ) / 2147483647 ≤ 1 := by
      rw [div_le_one (by norm_num)]
      have : s ≤ 2147483647 := by omega
      exact_mod_cast this
    constructor <;> nlinarith
  refine ⟨?_, key _ (iter_lt i seed)⟩
  unfold randomX86
  split_ifs with h0
  · exact ⟨le_rfl, h⟩
  · exact key _ (iter_lt (i + 1) seed)

/-- The generator as an affine map of the integers. -/
theorem iter_affine (t x : Nat) : ∃ S : ℤ, (1103515244 : ℤ) * S = 1103515245 ^ t - 1 ∧ ((lcg^[t] x : Nat) : ℤ) ≡ 1103515245 ^ t * x + 12345 * S [ZMOD 2147483648] := by
  induction t with
  | zero => exact ⟨0, by norm_num, by simp [Int.ModEq]⟩
  | succ t ih =>
    obtain ⟨S, h1, h2⟩ := ih
    refine ⟨1103515245 * S + 1, by rw [pow_succ]; linarith, ?_⟩
    rw [Function.iterate_succ_apply', lcg_eq]
    push_cast
    refine (Int.mod_modEq _ _).trans ?_
    have := (h2.mul_left 1103515245).add_right 12345
    refine this.trans ?_
    rw [pow_succ]
    ring_nf
    rfl

/-- The generator does not come back to a state before it has been through all of them. -/
theorem period {t x : Nat} (h : lcg^[t] x ≡ x [MOD 2147483648]) : 2147483648 ∣ t := by
  obtain ⟨S, h1, h2⟩ := iter_affine t x
  have h3 : (1103515245 ^ t * x + 12345 * S : ℤ) ≡ x [ZMOD 2147483648] := h2.symm.trans (by exact_mod_cast h)
  have h4 : (2147483648 : ℤ) ∣ S * (1103515244 * x + 12345) := by
    have := h3.symm.dvd
    have e : (1103515245 ^ t * x + 12345 * S : ℤ) - x = S * (1103515244 * x + 12345) := by
      have : (1103515245 ^ t : ℤ) = 1103515244 * S + 1 := by linarith
      rw [this]; ring
    rwa [e] at this
  have hcop : IsCoprime (2147483648 : ℤ) (1103515244 * x + 12345) := by
    have : IsCoprime (2 : ℤ) (1103515244 * x + 12345) := ⟨-(551757622 * x + 6172), 1, by ring⟩
    have := this.pow_left (m := 31)
    norm_num at this
    exact this
  have h5 : (2147483648 : ℤ) ∣ S := hcop.dvd_of_dvd_mul_right h4
  have h6 : (2 : ℤ) ^ 31 ∣ S := by norm_num; exact h5
  rcases Nat.eq_zero_or_pos t with rfl | ht
  · exact dvd_zero _
  have hm := Int.two_pow_sub_pow' (x := 1103515245) (y := 1) t (by norm_num) (by norm_num)
  rw [one_pow, ← h1, emultiplicity_mul Int.prime_two, show (1103515245 - 1 : ℤ) = 1103515244 by norm_num] at hm
  have hfin : emultiplicity (2 : ℤ) 1103515244 ≠ ⊤ := by
    rw [← finiteMultiplicity_iff_emultiplicity_ne_top]
    exact Int.finiteMultiplicity_iff.mpr ⟨by norm_num, by norm_num⟩
  have h7 : emultiplicity (2 : ℤ) S = emultiplicity (2 : ℤ) t := by
    have := (ENat.addLECancellable_of_ne_top hfin).inj.mp hm
    exact this
  have h8 : (31 : ENat) ≤ emultiplicity (2 : ℤ) S := by exact_mod_cast le_emultiplicity_of_pow_dvd h6
  rw [h7] at h8
  have h9 : (2 : ℤ) ^ 31 ∣ (t : ℤ) := pow_dvd_of_le_emultiplicity (by exact_mod_cast h8)
  have h10 : ((2147483648 : Nat) : ℤ) ∣ (t : ℤ) := by norm_num at h9 ⊢; exact h9
  exact_mod_cast h10

theorem lcg_inj {s t : Nat} (hs : s < 2147483648) (ht : t < 2147483648) (h : lcg s = lcg t) : s = t := by
  rw [lcg_eq, lcg_eq] at h
  have h1 : 1103515245 * s ≡ 1103515245 * t [MOD 2147483648] := Nat.ModEq.add_right_cancel' 12345 h
  have h2 : s ≡ t [MOD 2147483648] := Nat.ModEq.cancel_left_of_coprime (by decide +kernel) h1
  rwa [Nat.ModEq, Nat.mod_eq_of_lt hs, Nat.mod_eq_of_lt ht] at h2

theorem lcg_mod (s : Nat) : lcg (s % 2147483648) = lcg s := by
  rw [lcg_eq, lcg_eq]
  omega

theorem iter_inj {s t : Nat} (hs : s < 2147483648) (ht : t < 2147483648) : ∀ n, lcg^[n] s = lcg^[n] t → s = t := by
  intro n
  induction n generalizing s t with
  | zero => exact id
  | succ n ih =>
    intro h
    rw [Function.iterate_succ_apply, Function.iterate_succ_apply] at h
    exact lcg_inj hs ht (ih (lcg_lt s) (lcg_lt t) h)

theorem scale_inj {start stop : ℚ} (h : start ≠ stop) {s t : Nat} (e : scale start stop s = scale start stop t) : s = t := by
  unfold scale at e
  have h0 : stop - start ≠ 0 := fun h1 => h (by linarith)
  have h1 : (s : ℚ) / 2147483647 = (t : ℚ) / 2147483647 := mul_right_cancel₀ h0 (by linarith)
  have h2 : (s : ℚ) = t := by
    rw [div_left_inj' (by norm_num)] at h1
    exact h1
  exact_mod_cast h2

theorem iter_ne (seed : Nat) {i j n : Nat} (hij : i < j) (hj : j < i + 2147483648) : lcg^[i + n + 1] seed ≠ lcg^[j + n + 1] seed := by
  intro h
  have e : j + n + 1 = (j - i) + (i + n + 1) := by omega
  have h2 : lcg^[j + n + 1] seed = lcg^[j - i] (lcg^[i + n + 1] seed) := by rw [← Function.iterate_add_apply, ← e]
  have := period (t := j - i) (x := lcg^[i + n + 1] seed) (by rw [← h2, ← h])
  have := Nat.le_of_dvd (by omega) this
  omega

/-- **C178** Random numbers do not repeat: any two of two to the power 31 successive elements of a tensor differ. -/
theorem C178_random_distinct {start stop : ℚ} (h : start ≠ stop) (seed : Nat) {i j : Nat} (hij : i < j) (hj : j < i + 2147483648) :
    randomX86 start stop seed i ≠ randomX86 start stop seed j ∧ randomArm start stop seed i ≠ randomArm start stop seed j := by
  have h0 : stop - start ≠ 0 := fun h1 => h (by linarith)
  constructor
  · unfold randomX86
    rw [if_neg h0, if_neg h0]
    exact fun e => iter_ne seed (n := 1) hij hj (scale_inj h e)
  · unfold randomArm
    exact fun e => iter_ne seed (n := 0) hij hj (scale_inj h e)

/-- **C178** The seed: seeds that agree in their last 31 bits give the same tensor, all others differ in every element. -/
theorem C178_random_seed {start stop : ℚ} (h : start ≠ stop) (s t i : Nat) :
    (randomX86 start stop s i = randomX86 start stop t i ↔ s % 2147483648 = t % 2147483648) ∧
      (randomArm start stop s i = randomArm start stop t i ↔ s % 2147483648 = t % 2147483648) := by
  have key : ∀ n, lcg^[n + 1] s = lcg^[n + 1] t ↔ s % 2147483648 = t % 2147483648 := by
    intro n
    rw [Function.iterate_succ_apply, Function.iterate_succ_apply, ← lcg_mod s, ← lcg_mod t]
    constructor
    · intro e
      exact lcg_inj (Nat.mod_lt _ (by norm_num)) (Nat.mod_lt _ (by norm_num)) (iter_inj (lcg_lt _) (lcg_lt _) n e)
    · intro e
      rw [e]
  have h0 : stop - start ≠ 0 := fun h1 => h (by linarith)
  constructor
  · unfold randomX86
    rw [if_neg h0, if_neg h0]
    exact ⟨fun e => (key (i + 1)).mp (scale_inj h e), fun e => by rw [(key (i + 1)).mpr e]⟩
  · unfold randomArm
    exact ⟨fun e => (key i).mp (scale_inj h e), fun e => by rw [(key i).mpr e]⟩

/-- **C178** One seed, two tensors: the numbers of the one kind of loop (full precision on x86) are those of the other (half
precision on x86, everything on ARM) moved by one, so that for every seed every element differs. -/
theorem C178_random_shift_violated {start stop : ℚ} (h : start ≠ stop) (seed i : Nat) :
    randomX86 start stop seed i = randomArm start stop seed (i + 1) ∧ randomX86 start stop seed i ≠ randomArm start stop seed i := by
  have h0 : stop - start ≠ 0 := fun h1 => h (by linarith)
  have e : randomX86 start stop seed i = randomArm start stop seed (i + 1) := by
    unfold randomX86 randomArm
    rw [if_neg h0]
  refine ⟨e, ?_⟩
  rw [e]
  exact ((C178_random_distinct h seed (i := i) (j := i + 1) (by omega) (by omega)).2).symm

/-! ## C179: scattering a tensor into shards -/

/-- What is to be copied: of every element of the source, given by its indices `pre`, `lo`, `post`, a copy at its place in shard `lo`,
which has the shape without that dimension. -/
def Copies (A : List Nat) (L : Nat) (B : List Nat) (w : Nat × Nat × Nat) : Prop :=
  ∃ pre lo post, InB A pre ∧ lo < L ∧ InB B post ∧ w = (lo, lin (A ++ B) (pre ++ post), lin (A ++ L :: B) (pre ++ lo :: post))

theorem inB_len : ∀ {s i : List Nat}, InB s i → i.length = s.length
  | [], [], _ => rfl
  | _ :: _, _ :: _, h => by simp [inB_len h.2]

/-- **C179** A row-major source, a dimension that is neither the first nor the last: every element is copied to its place in the
shard of its index, and nothing else is written. -/
theorem C179_scatter_partial (A B : List Nat) (L stride0 : Nat) (hA : A ≠ []) (hB : B ≠ []) (w : Nat × Nat × Nat) :
    w ∈ scatter (A ++ L :: B) stride0 A.length ↔ Copies A L B w := by
  have e1 : (A ++ L :: B).drop (A.length + 1) = B := by
    rw [show A ++ L :: B = (A ++ [L]) ++ B by simp]
    exact List.drop_left' (by simp)
  have e2 : (A ++ L :: B).drop A.length = L :: B := List.drop_left' rfl
  have e3 : (A ++ L :: B).take A.length = A := List.take_left' rfl
  have e4 : (A ++ L :: B).getD A.length 0 = L := by simp [List.getD_eq_getElem?_getD]
  have hB' : 0 < B.length := List.length_pos_iff.mpr hB
  have hA' : A.length ≠ 0 := by have := List.length_pos_iff.mpr hA; omega
  unfold scatter Copies
  dsimp only
  rw [e1, e2, e3, e4, if_neg hA', if_neg (by simp only [List.length_append, List.length_cons]; omega)]
  simp only [List.mem_flatMap, List.mem_map, List.mem_range]
  constructor
  · rintro ⟨lo, hlo, ho, hho, r, hr, rfl⟩
    obtain ⟨a1, a2⟩ := coords_spec hho
    obtain ⟨b1, b2⟩ := coords_spec hr
    refine ⟨coords A ho, lo, coords B r, a1, hlo, b1, ?_⟩
    rw [lin_append _ _ _ _ (inB_len a1), lin_append _ _ _ _ (inB_len a1), a2, b2]
    simp only [lin, numel, b2, Nat.add_assoc]
  · rintro ⟨pre, lo, post, h1, h2, h3, rfl⟩
    refine ⟨lo, h2, lin A pre, lin_lt h1, lin B post, lin_lt h3, ?_⟩
    rw [lin_append _ _ _ _ (inB_len h1), lin_append _ _ _ _ (inB_len h1)]
    simp only [lin, numel, Nat.add_assoc]

/-- **C179** The last dimension: where the source has more than one row and the dimension more than one element, the second row's
elements are taken from the first row. -/
theorem C179_last_violated (A : List Nat) (L stride0 : Nat) (hA : 2 ≤ numel A) (hL : 2 ≤ L) (hne : A ≠ []) :
    (0, 1, 1) ∈ scatter (A ++ [L]) stride0 A.length ∧ ¬ Copies A L [] (0, 1, 1) := by
  have hA' : A.length ≠ 0 := by have := List.length_pos_iff.mpr hne; omega
  constructor
  · unfold scatter
    have e1 : (A ++ [L]).drop (A.length + 1) = [] := by simp
    have e3 : (A ++ [L]).take A.length = A := List.take_left' rfl
    have e4 : (A ++ [L]).getD A.length 0 = L := by simp [List.getD_eq_getElem?_getD]
    dsimp only
    rw [e1, e3, e4, if_neg hA', if_pos (by simp)]
    simp only [List.mem_flatMap, List.mem_map, List.mem_range]
    exact ⟨0, by omega, 1, by omega, 0, by decide, by simp [numel]⟩
  · rintro ⟨pre, lo, post, h1, h2, h3, h⟩
    obtain rfl : post = [] := by
      cases post with
      | nil => rfl
      | cons => exact h3.elim
    have hl := inB_len h1
    rw [lin_append _ _ _ _ hl, lin_append _ _ _ _ hl] at h
    simp only [lin, numel, Prod.mk.injEq, Nat.mul_one, Nat.add_zero] at h
    obtain ⟨rfl, h4, h5⟩ := h
    rw [← h4] at h5
    omega

/-- **C179** The first dimension: the element count of a row is taken for the number of rows, so that, a row having more than one
element, memory behind the source is copied behind the shards. -/
theorem C179_first_violated (L : Nat) (B : List Nat) (hL : 0 < L) (hB : B ≠ []) (hn : 2 ≤ numel B) :
    ∃ lo dst src, (lo, dst, src) ∈ scatter (L :: B) (numel B) 0 ∧ numel (L :: B) ≤ src ∧ numel B ≤ dst := by
  have hB' : 0 < B.length := List.length_pos_iff.mpr hB
  refine ⟨0, 1 * numel B + 0, 1 * numel (L :: B) + 0 * numel B + 0, ?_, by omega, by omega⟩
  unfold scatter
  dsimp only
  rw [if_neg (by simp only [List.length_cons]; omega), if_pos rfl]
  simp only [List.mem_flatMap, List.mem_map, List.mem_range, List.drop_succ_cons, List.drop_zero, List.getD_cons_zero]
  exact ⟨0, hL, 1, by omega, 0, by omega, rfl⟩

example : (1, 3, 7) ∈ scatter [1, 2, 5] 10 1 → False := by decide
example : (1, 3, 8) ∈ scatter [1, 2, 5] 10 1 := by decide

/-! ## C180: casts and comparisons -/

theorem castBlock_get (N len : Nat) (conv : α → β) (src : Nat → α) (d : Nat → Option β) (b k : Nat) :
    castBlock N len conv src d b k = if b * N ≤ k ∧ k < b * N + N ∧ k < len then some (conv (src k)) else d k := by
  unfold castBlock store
  dsimp only
  by_cases h : N ≤ len - b * N
  · rw [if_pos h]
    by_cases h1 : b * N ≤ k ∧ k < b * N + N
    · rw [if_pos h1, show b * N + (k - b * N) = k by omega]
      by_cases h2 : k < len
      · rw [if_pos ⟨h1.1, h1.2, h2⟩]
      · omega
    · rw [if_neg h1, if_neg (by omega)]
  · rw [if_neg h]
    by_cases h1 : b * N ≤ k ∧ k < b * N + (len - b * N)
    · rw [if_pos h1, if_pos (by omega), show b * N + (k - b * N) = k by omega]
    · rw [if_neg h1, if_neg (by omega)]

/-- **C180** A cast on ARM: whatever the vector width and the order in which the threads take the blocks, every element is the
converted element of the source, and nothing else is written. -/
theorem C180_cast_arm (N len : Nat) (hN : 0 < N) (conv : α → β) (src : Nat → α) (order : List Nat)
    (ho : order.Perm (List.range ((len + N - 1) / N))) (k : Nat) : cast N len conv src order k = if k < len then some (conv (src k)) else none := by
  have key : ∀ (o : List Nat) (d : Nat → Option β), o.foldl (castBlock N len conv src) d k =
      if (∃ b ∈ o, b * N ≤ k ∧ k < b * N + N ∧ k < len) then some (conv (src k)) else d k := by
    intro o
    induction o with
    | nil => intro d; simp
    | cons b o ih =>
      intro d
      rw [List.foldl_cons, ih, castBlock_get]
      by_cases h1 : ∃ b ∈ o, b * N ≤ k ∧ k < b * N + N ∧ k < len
      · rw [if_pos h1, if_pos (by obtain ⟨x, hx, h⟩ := h1; exact ⟨x, List.mem_cons_of_mem _ hx, h⟩)]
      · rw [if_neg h1]
        by_cases h2 : b * N ≤ k ∧ k < b * N + N ∧ k < len
        · rw [if_pos h2, if_pos ⟨b, List.mem_cons_self, h2⟩]
        · rw [if_neg h2, if_neg]
          rintro ⟨x, hx, h⟩
          rcases List.mem_cons.mp hx with rfl | hx
          · exact h2 h
          · exact h1 ⟨x, hx, h⟩
  unfold cast
  rw [key]
  by_cases h : k < len
  · rw [if_pos h, if_pos]
    refine ⟨k / N, ?_, Nat.div_mul_le_self k N, ?_, h⟩
    · rw [ho.mem_iff, List.mem_range, Nat.div_lt_iff_lt_mul hN]
      have h1 := Nat.div_add_mod (len + N - 1) N
      have h2 := Nat.mod_lt (len + N - 1) hN
      rw [Nat.mul_comm] at h1
      omega
    · have := Nat.lt_div_mul_add hN (a := k)
      omega
  · rw [if_neg h, if_neg]
    rintro ⟨b, _, _, _, h3⟩
    exact h h3

/-- **C180** A cast on x86: no element of the result is written. -/
theorem C180_cast_x86_violated (len : Nat) (conv : α → β) (src : Nat → α) (k : Nat) : castX86 len conv src k = none := rfl

/-- **C180** Comparison for equality: whenever the operator returns and the first operand needs no repetition, every element tells
whether the two elements that broadcasting pairs with it are equal. -/
theorem C180_equal_partial [DecidableEq α] (naive : Bool) (a b : Tens α) (r : Tens Bool) (hca : a.Contig) (hcb : b.Contig) (ha : 0 < numel a.shape)
    (hb : 0 < numel b.shape) (h : equal naive a b = some r) (hfit : numel r.shape = numel a.shape) {i : List Nat} (hi : InB r.shape i) {x y : α}
    (hx : a.elem (Ops.bidx a.shape i) = some x) (hy : b.elem (Ops.bidx b.shape i) = some y) : r.elem i = some (decide (x = y)) := by
  have := ((Ops.elewise_correct_partial naive _ a b r hca hcb ha hb h hfit).2 i hi).2.2
  rw [this, hx, hy]
  rfl

/-- **C180** If the first operand has to be repeated and the operator returns, some element is computed from memory behind it. -/
theorem C180_equal_violated [DecidableEq α] (naive : Bool) (a b : Tens α) (r : Tens Bool) (ha : 0 < numel a.shape) (hb : 0 < numel b.shape)
    (hbuf : ∀ k, numel a.shape ≤ k → a.raw k = none) (h : equal naive a b = some r) (hfit : numel r.shape ≠ numel a.shape) :
    ∃ i, InB r.shape i ∧ r.elem i = none :=
  Ops.elewise_reads_outside_violated naive _ a b r ha hb hbuf h hfit

end Verif.Fill
