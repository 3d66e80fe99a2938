import Verif.Fsq.Model
import Mathlib.Tactic.Ring
import Mathlib.Tactic.FieldSimp
import Mathlib.Data.List.GetD
import Mathlib.Algebra.Order.BigOperators.Group.List

/-!
# C181, C182: codes of a finite scalar quantizer
-/

namespace Verif.Fsq

/-! ## Mixed radix -/

/-- The product of the levels before dimension `d`. -/
def below (levels : List Nat) (d : Nat) : Nat := (levels.take d).prod

theorem cum_get : ∀ (l : List Nat) (a i : Nat), i < l.length → (cum a l).getD i 0 = a * (l.take (i + 1)).prod
  | [], _, _, h => by simp at h
  | b :: bs, a, 0, _ => by simp [cum]
  | b :: bs, a, i + 1, h => by
    have := cum_get bs (a * b) i (by simpa using h)
    rw [cum, List.getD_cons_succ, this, List.take_succ_cons, List.prod_cons, Nat.mul_assoc]

theorem basis_get (levels : List Nat) {d : Nat} (hd : d < levels.length) : (basis levels).getD d 0 = below levels d := by
  unfold basis below
  rw [cum_get _ _ _ (by rw [List.length_cons, List.length_dropLast]; omega), Nat.one_mul, List.take_succ_cons, List.prod_cons, Nat.one_mul, List.dropLast_eq_take,
    List.take_take, Nat.min_eq_left (by omega)]

theorem below_succ (levels : List Nat) {d : Nat} (hd : d < levels.length) : below levels (d + 1) = below levels d * levels.getD d 0 := by
  unfold below
  rw [List.take_add_one, List.prod_append, List.getElem?_eq_getElem hd, List.getD_eq_getElem _ _ hd]
  simp

theorem below_full (levels : List Nat) : below levels levels.length = size levels := by
  unfold below size
  rw [List.take_length]

/-- The sum of the first `n` terms, as the program forms it. -/
def sumTo (f : Nat → Nat) (n : Nat) : Nat := ((List.range n).map f).sum

theorem sumTo_succ (f : Nat → Nat) (n : Nat) : sumTo f (n + 1) = sumTo f n + f n := by
  unfold sumTo
  rw [List.range_succ, List.map_append, List.sum_append]
  simp

theorem digits_sum (levels : List Nat) (i : Nat) : ∀ n, n ≤ levels.length →
    sumTo (fun d => i / below levels d % levels.getD d 0 * below levels d) n = i % below levels n
  | 0, _ => by simp [sumTo, below, Nat.mod_one]
  | n + 1, h => by
    rw [sumTo_succ, digits_sum levels i n (by omega), below_succ levels (by omega), Nat.mod_mul, Nat.mul_comm (below levels n)]

theorem sum_digit (levels : List Nat) (c : Nat → Nat) (hc : ∀ d < levels.length, c d < levels.getD d 0) :
    ∀ n, n ≤ levels.length → sumTo (fun d => c d * below levels d) n < below levels n ∧
      ∀ d < n, sumTo (fun d => c d * below levels d) n / below levels d % levels.getD d 0 = c d
  | 0, _ => ⟨by simp [sumTo, below], fun _ h => absurd h (Nat.not_lt_zero _)⟩
  | n + 1, h => by
    obtain ⟨h1, h2⟩ := sum_digit levels c hc n (by omega)
    have h3 := hc n (by omega)
    have h0 : 0 < below levels n := by omega
    rw [sumTo_succ, below_succ levels (by omega)]
    constructor
    · calc _ < below levels n + c n * below levels n := by omega
        _ = below levels n * (c n + 1) := by ring
        _ ≤ _ := Nat.mul_le_mul_left _ h3
    · intro d hd
      by_cases e : d = n
      · subst e
        rw [Nat.add_mul_div_right _ _ h0, Nat.div_eq_of_lt h1, Nat.zero_add, Nat.mod_eq_of_lt h3]
      · have hd' : d < n := by omega
        rw [← h2 d hd']
        have key : ∃ m, below levels n = below levels (d + 1) * m := by
          refine ⟨((levels.take n).drop (d + 1)).prod, ?_⟩
          unfold below
          rw [← List.prod_append]
          congr 1
          conv_lhs => rw [← List.take_append_drop (d + 1) (levels.take n)]
          rw [List.take_take, Nat.min_eq_left (by omega)]
        obtain ⟨m, hm⟩ := key
        have hb : 0 < below levels d := by
          rcases Nat.eq_zero_or_pos (below levels d) with h0' | h0'
          · rw [hm, below_succ levels (by omega), h0'] at h0
            simp at h0
          · exact h0'
        rw [hm, below_succ levels (by omega), show sumTo (fun d => c d * below levels d) n + c n * (below levels d * levels.getD d 0 * m)
          = sumTo (fun d => c d * below levels d) n + (levels.getD d 0 * (c n * m)) * below levels d by ring, Nat.add_mul_div_right _ _ hb, Nat.add_mul_mod_self_left]

theorem pos_div {D i d : Nat} (hd : d < D) : (i * D + d) / D = i ∧ (i * D + d) % D = d := by
  have hD : 0 < D := by omega
  rw [Nat.mul_comm]
  exact ⟨by rw [Nat.mul_add_div hD, Nat.div_eq_of_lt hd, Nat.add_zero], by rw [Nat.mul_add_mod, Nat.mod_eq_of_lt hd]⟩

/-! ## C181 -/

/-- A codebook: every dimension has at least two levels. -/
def Levels (levels : List Nat) : Prop := levels ≠ [] ∧ ∀ l ∈ levels, 2 ≤ l

theorem Levels.get {levels : List Nat} (h : Levels levels) {d : Nat} (hd : d < levels.length) : 2 ≤ levels.getD d 0 := by
  rw [List.getD_eq_getElem _ _ hd]
  exact h.2 _ (List.getElem_mem hd)

theorem toCodes_eq (levels : List Nat) (ind : Nat → Nat) {i d : Nat} (hd : d < levels.length) :
    toCodes levels ind (i * levels.length + d) =
      (((ind i / below levels d % levels.getD d 0 : Nat) : ℚ) - (levels.getD d 0 / 2 : Nat)) / (levels.getD d 0 / 2 : Nat) := by
  unfold toCodes unscale levelIndex
  dsimp only
  rw [(pos_div hd).1, (pos_div hd).2, basis_get levels hd]

theorem cast_sum : ∀ l : List Nat, ((l.sum : Nat) : Int) = (l.map fun n : Nat => (n : Int)).sum
  | [] => rfl
  | n :: l => by rw [List.sum_cons, List.map_cons, List.sum_cons, Nat.cast_add, cast_sum l]

theorem trunc_nat (n : Nat) : trunc (n : ℚ) = n := by
  unfold trunc
  rw [if_pos (by positivity), Int.floor_natCast]

theorem scale_code {l : Nat} (hl : 2 ≤ l) (x : ℚ) : (x - (l / 2 : Nat)) / (l / 2 : Nat) * (l / 2 : Nat) + (l / 2 : Nat) = x := by
  have h1 : 1 ≤ l / 2 := by omega
  have h : ((l / 2 : Nat) : ℚ) ≠ 0 := by
    have : ((l / 2 : Nat) : ℚ) ≥ 1 := by exact_mod_cast h1
    linarith
  field_simp
  ring

/-- Codes of which dimension `d` has the level `c d` (as a whole number): the index is their mixed-radix number. -/
theorem toIndices_grid {levels : List Nat} (z : Nat → ℚ) (i : Nat) (c : Nat → Nat)
    (hz : ∀ d < levels.length, scale levels z (i * levels.length + d) = c d) :
    toIndices levels z i = (sumTo (fun d => c d * below levels d) levels.length : Nat) := by
  unfold toIndices sumTo
  rw [show (((List.range levels.length).map fun d => c d * below levels d).sum : Nat) = (((List.range levels.length).map fun d => ((c d * below levels d : Nat) : Int)).sum : Int) by
    rw [cast_sum, List.map_map]; rfl]
  congr 1
  apply List.map_congr_left
  intro d hd
  have hd := List.mem_range.mp hd
  rw [hz d hd, basis_get levels hd, ← Nat.cast_mul, trunc_nat]

theorem scale_grid {levels : List Nat} (z : Nat → ℚ) {i d : Nat} (hd : d < levels.length) :
    scale levels z (i * levels.length + d) = z (i * levels.length + d) * (levels.getD d 0 / 2 : Nat) + (levels.getD d 0 / 2 : Nat) := by
  unfold scale
  dsimp only
  rw [(pos_div hd).2]

/-- **C181** Indices to codes and back: every index of the codebook comes back, wherever in the tensor it is. -/
theorem C181_index {levels : List Nat} (hl : Levels levels) (ind : Nat → Nat) {i : Nat} (hi : ind i < size levels) :
    toIndices levels (toCodes levels ind) i = ind i := by
  rw [toIndices_grid (toCodes levels ind) i (fun d => ind i / below levels d % levels.getD d 0) fun d hd => ?_]
  · rw [digits_sum levels (ind i) _ le_rfl, below_full, Nat.mod_eq_of_lt hi]
  · rw [scale_grid _ hd, toCodes_eq levels ind hd, scale_code (hl.get hd)]

/-- **C181** Codes to indices and back: codes that lie on the levels come back, and their index is one of the codebook. -/
theorem C181_code {levels : List Nat} (hl : Levels levels) (z : Nat → ℚ) (c : Nat → Nat → Nat)
    (hz : ∀ i, ∀ d < levels.length, c i d < levels.getD d 0 ∧ z (i * levels.length + d) = ((c i d : ℚ) - (levels.getD d 0 / 2 : Nat)) / (levels.getD d 0 / 2 : Nat)) (i : Nat) :
    (0 ≤ toIndices levels z i ∧ toIndices levels z i < size levels) ∧
      ∀ d < levels.length, toCodes levels (fun i => (toIndices levels z i).toNat) (i * levels.length + d) = z (i * levels.length + d) := by
  have h1 : toIndices levels z i = (sumTo (fun d => c i d * below levels d) levels.length : Nat) :=
    toIndices_grid z i (c i) fun d hd => by rw [scale_grid _ hd, (hz i d hd).2, scale_code (hl.get hd)]
  have h2 := sum_digit levels (c i) (fun d hd => (hz i d hd).1) _ le_rfl
  constructor
  · rw [h1, ← below_full]
    exact ⟨by positivity, by exact_mod_cast h2.1⟩
  · intro d hd
    rw [toCodes_eq _ _ hd, h1, Int.toNat_natCast, h2.2 d hd, (hz i d hd).2]

/-- **C181** Different indices have different codes, and codes lie between -1 and 1. -/
theorem C181_distinct {levels : List Nat} (hl : Levels levels) {i j : Nat} (hi : i < size levels) (hj : j < size levels) :
    ((∀ d < levels.length, codebook levels i d = codebook levels j d) → i = j) ∧ ∀ d < levels.length, -1 ≤ codebook levels i d ∧ codebook levels i d ≤ 1 := by
  constructor
  · intro h
    have e := C181_index hl (fun i => i) (i := i) hi
    have e' := C181_index hl (fun i => i) (i := j) hj
    have : toIndices levels (toCodes levels fun i => i) i = toIndices levels (toCodes levels fun i => i) j := by
      unfold toIndices
      congr 1
      apply List.map_congr_left
      intro d hd
      have hd := List.mem_range.mp hd
      rw [scale_grid _ hd, scale_grid _ hd]
      have := h d hd
      unfold codebook at this
      rw [this]
    rw [e, e'] at this
    exact_mod_cast this
  · intro d hd
    unfold codebook
    rw [toCodes_eq _ _ hd]
    have hl2 := hl.get hd
    generalize levels.getD d 0 = l at hl2 ⊢
    have hm : i / below levels d % l < l := Nat.mod_lt _ (by omega)
    generalize i / below levels d % l = c at hm ⊢
    have h1 : (1 : ℚ) ≤ (l / 2 : Nat) := by exact_mod_cast (show 1 ≤ l / 2 by omega)
    have h2 : (c : ℚ) ≤ 2 * (l / 2 : Nat) := by exact_mod_cast (show c ≤ 2 * (l / 2) by omega)
    have h3 : (0 : ℚ) ≤ c := by positivity
    rw [le_div_iff₀ (by linarith), div_le_iff₀ (by linarith)]
    constructor <;> linarith

example : Levels [5, 5, 5, 5] ∧ size [5, 5, 5, 5] = 625 := ⟨⟨by simp, by simp⟩, rfl⟩

/-! ### Quantization -/

theorem round_mem {q : ℚ} {m : Int} (h1 : (m : ℚ) - 1 / 2 < q) (h2 : q < m + 1 / 2) : round q = m := by
  unfold round
  split_ifs with h
  · rw [Int.floor_eq_iff]
    constructor <;> linarith
  · rw [Int.ceil_eq_iff]
    constructor <;> linarith

theorem quantize_eq (levels : List Nat) (z : Nat → ℚ) {i d : Nat} (hd : d < levels.length) :
    quantize levels z (i * levels.length + d) = (round (bound levels z (i * levels.length + d)) : ℚ) / ((levels.getD d 0 : ℚ) / 2) := by
  unfold quantize
  rw [(pos_div hd).2]

theorem bound_eq (levels : List Nat) (z : Nat → ℚ) {i d : Nat} (hd : d < levels.length) :
    bound levels z (i * levels.length + d) = max (-(((levels.getD d 0 : ℚ) - 1) * (1 + 1 / 1000) / 2) + if levels.getD d 0 % 2 = 0 then 1 / 2 else 0)
      (min (((levels.getD d 0 : ℚ) - 1) * (1 + 1 / 1000) / 2 + if levels.getD d 0 % 2 = 0 then 1 / 2 else 0) (z (i * levels.length + d))) := by
  unfold bound
  dsimp only
  rw [(pos_div hd).2]

theorem round_ge {q : ℚ} {m : Int} (h : (m : ℚ) - 1 / 2 < q) : m ≤ round q := by
  unfold round
  split_ifs with h0
  · exact Int.le_floor.mpr (by linarith)
  · by_contra hc
    have h1 : ⌈q - 1 / 2⌉ ≤ m - 1 := by omega
    have h2 := Int.ceil_le.mp h1
    push_cast at h2
    linarith

/-- Any input whatever: a level of the quantized value is not negative. -/
theorem scaled_nonneg {levels : List Nat} (hl : Levels levels) (hk : ∀ l ∈ levels, l ≤ 1000) (z : Nat → ℚ) {i d : Nat} (hd : d < levels.length) :
    0 ≤ scale levels (quantize levels z) (i * levels.length + d) := by
  rw [scale_grid _ hd, quantize_eq _ _ hd, bound_eq _ _ hd]
  have h2 := hl.get hd
  have h3 : levels.getD d 0 ≤ 1000 := by rw [List.getD_eq_getElem _ _ hd]; exact hk _ (List.getElem_mem hd)
  generalize levels.getD d 0 = l at h2 h3 ⊢
  generalize hb : max (α := ℚ) _ _ = b
  have h4 : -(((l : ℚ) - 1) * (1 + 1 / 1000) / 2) + (if l % 2 = 0 then 1 / 2 else 0) ≤ b := by rw [← hb]; exact le_max_left _ _
  have h5 : (l : ℚ) ≤ 1000 := by exact_mod_cast h3
  have h6 : (2 : ℚ) ≤ l := by exact_mod_cast h2
  have h7 : -((l / 2 : Nat) : Int) ≤ round b := by
    apply round_ge
    push_cast
    by_cases hp : l % 2 = 0
    · rw [if_pos hp] at h4
      have h8 : ((l / 2 : Nat) : ℚ) = l / 2 := by
        have : 2 * (l / 2) = l := by omega
        have : (2 : ℚ) * (l / 2 : Nat) = l := by exact_mod_cast this
        linarith
      have h8' : (((l : Int) / 2 : Int) : ℚ) = ((l / 2 : Nat) : ℚ) := by norm_cast
      rw [h8', h8]
      linarith
    · rw [if_neg hp] at h4
      have h8 : ((l / 2 : Nat) : ℚ) = (l - 1) / 2 := by
        have : 2 * (l / 2) + 1 = l := by omega
        have : (2 : ℚ) * (l / 2 : Nat) + 1 = l := by exact_mod_cast this
        linarith
      have h8' : (((l : Int) / 2 : Int) : ℚ) = ((l / 2 : Nat) : ℚ) := by norm_cast
      rw [h8', h8]
      linarith
  have h9 : -((l / 2 : Nat) : ℚ) ≤ round b := by exact_mod_cast h7
  have h10 : ((l / 2 : Nat) : ℚ) ≤ l / 2 := by
    have : 2 * (l / 2) ≤ l := by omega
    have : (2 : ℚ) * (l / 2 : Nat) ≤ l := by exact_mod_cast this
    linarith
  have h11 : (-1 : ℚ) ≤ (round b : ℚ) / ((l : ℚ) / 2) := by
    rw [le_div_iff₀ (by linarith)]
    linarith
  have h12 : (0 : ℚ) ≤ ((l / 2 : Nat) : ℚ) := by positivity
  nlinarith

theorem trunc_nonneg {q : ℚ} (h : 0 ≤ q) : 0 ≤ trunc q := by
  unfold trunc
  rw [if_pos h]
  exact Int.floor_nonneg.mpr h

/-- **C181** An even number of levels: clipping is to the wrong side.  If the last dimension has an even number of levels and the
input there is at least half of it, the index lies outside the codebook, whatever the other dimensions. -/
theorem C181_even_violated {levels : List Nat} (hl : Levels levels) (hk : ∀ l ∈ levels, l ≤ 1000) (z : Nat → ℚ) (i : Nat)
    (he : levels.getD (levels.length - 1) 0 % 2 = 0) (hz : (levels.getD (levels.length - 1) 0 : ℚ) / 2 ≤ z (i * levels.length + (levels.length - 1))) :
    (size levels : Int) ≤ toIndices levels (quantize levels z) i := by
  have hn : 0 < levels.length := List.length_pos_iff.mpr hl.1
  have hd : levels.length - 1 < levels.length := by omega
  have h2 := hl.get hd
  have h3 : levels.getD (levels.length - 1) 0 ≤ 1000 := by rw [List.getD_eq_getElem _ _ hd]; exact hk _ (List.getElem_mem hd)
  have hsize : size levels = levels.getD (levels.length - 1) 0 * below levels (levels.length - 1) := by
    rw [← below_full]
    conv_lhs => rw [show levels.length = levels.length - 1 + 1 by omega]
    rw [below_succ _ hd, Nat.mul_comm]
  have hs : scale levels (quantize levels z) (i * levels.length + (levels.length - 1)) = levels.getD (levels.length - 1) 0 := by
    rw [scale_grid _ hd, quantize_eq _ _ hd, bound_eq _ _ hd, if_pos he]
    generalize levels.getD (levels.length - 1) 0 = l at he h2 h3 hz ⊢
    have h5 : (l : ℚ) ≤ 1000 := by exact_mod_cast h3
    have h6 : (2 : ℚ) ≤ l := by exact_mod_cast h2
    have h8 : ((l / 2 : Nat) : ℚ) = l / 2 := by
      have : 2 * (l / 2) = l := by omega
      have : (2 : ℚ) * (l / 2 : Nat) = l := by exact_mod_cast this
      linarith
    have hr : round (max (-(((l : ℚ) - 1) * (1 + 1 / 1000) / 2) + 1 / 2) (min (((l : ℚ) - 1) * (1 + 1 / 1000) / 2 + 1 / 2) (z (i * levels.length + (levels.length - 1))))) = ((l / 2 : Nat) : Int) := by
      have hm : (l : ℚ) / 2 ≤ min (((l : ℚ) - 1) * (1 + 1 / 1000) / 2 + 1 / 2) (z (i * levels.length + (levels.length - 1))) := le_min (by linarith) hz
      have hM : min (((l : ℚ) - 1) * (1 + 1 / 1000) / 2 + 1 / 2) (z (i * levels.length + (levels.length - 1))) ≤ ((l : ℚ) - 1) * (1 + 1 / 1000) / 2 + 1 / 2 := min_le_left _ _
      rw [max_eq_right (by linarith)]
      apply round_mem
      · rw [Int.cast_natCast, h8]; linarith
      · rw [Int.cast_natCast, h8]; linarith
    rw [hr, Int.cast_natCast, h8, div_self (by linarith)]
    ring
  unfold toIndices
  conv_rhs => rw [show levels.length = levels.length - 1 + 1 by omega]
  rw [List.range_succ, List.map_append, List.sum_append, List.map_singleton, List.sum_singleton, Nat.sub_add_cancel hn]
  rw [hs, basis_get _ hd, ← Nat.cast_mul, trunc_nat, ← hsize]
  have : 0 ≤ ((List.range (levels.length - 1)).map fun d => trunc (scale levels (quantize levels z) (i * levels.length + d) * ((basis levels).getD d 0 : Nat))).sum := by
    apply List.sum_nonneg
    intro x hx
    obtain ⟨d, hd', rfl⟩ := List.mem_map.mp hx
    exact trunc_nonneg (mul_nonneg (scaled_nonneg hl hk z (by have := List.mem_range.mp hd'; omega)) (by positivity))
  omega

/-- **C181** An odd number of levels, one dimension: the codeword `m` steps above the middle has index `l / 2 + m`, but the index
computed for that very value is one lower, so that the middle and the value above it get the same index. -/
theorem C181_odd_violated {l : Nat} (h2 : 3 ≤ l) (ho : l % 2 = 1) {m : Nat} (hm : 1 ≤ m) (hm' : m ≤ l / 2) :
    toIndices [l] (quantize [l] fun _ => (m : ℚ)) 0 = (l / 2 + m : Nat) - 1 ∧ codebook [l] (l / 2 + m) 0 * (l / 2 : Nat) = m := by
  have h8 : ((l / 2 : Nat) : ℚ) = (l - 1) / 2 := by
    have : 2 * (l / 2) + 1 = l := by omega
    have : (2 : ℚ) * (l / 2 : Nat) + 1 = l := by exact_mod_cast this
    linarith
  have h6 : (3 : ℚ) ≤ l := by exact_mod_cast h2
  have hmq : (m : ℚ) ≤ (l - 1) / 2 := by rw [← h8]; exact_mod_cast hm'
  have hm1 : (1 : ℚ) ≤ m := by exact_mod_cast hm
  constructor
  · have hb : bound [l] (fun _ => (m : ℚ)) (0 * [l].length + 0) = m := by
      rw [bound_eq _ _ (by simp)]
      simp only [List.getD_cons_zero]
      rw [if_neg (by omega), min_eq_right (by linarith), max_eq_right (by linarith)]
    have hr : round (m : ℚ) = m := round_mem (by push_cast; linarith) (by push_cast; linarith)
    have hs : scale [l] (quantize [l] fun _ => (m : ℚ)) (0 * [l].length + 0) = (m : ℚ) / (l / 2) * (l / 2 : Nat) + (l / 2 : Nat) := by
      rw [scale_grid _ (by simp), quantize_eq _ _ (by simp), hb, hr]
      simp
    unfold toIndices
    simp only [List.length_singleton, List.range_one, List.map_singleton, List.sum_singleton]
    have hs' : scale [l] (quantize [l] fun _ => (m : ℚ)) (0 * 1 + 0) = (m : ℚ) / (l / 2) * (l / 2 : Nat) + (l / 2 : Nat) := hs
    rw [hs', show ((basis [l]).getD 0 0 : Nat) = 1 by simp [basis, cum], Nat.cast_one, mul_one]
    have e : (m : ℚ) / (l / 2) * (l / 2 : Nat) + (l / 2 : Nat) = (l / 2 : Nat) + m - m / l := by
      rw [h8]
      field_simp
      ring
    rw [e]
    have h9 : (m : ℚ) / l ≤ 1 / 2 := by
      rw [div_le_iff₀ (by linarith)]
      linarith
    have h10 : (0 : ℚ) < (m : ℚ) / l := by positivity
    have h11 : (0 : ℚ) ≤ (l / 2 : Nat) := by positivity
    unfold trunc
    rw [if_pos (by linarith), Int.floor_eq_iff]
    push_cast
    have h12 : (((l : Int) / 2 : Int) : ℚ) = ((l / 2 : Nat) : ℚ) := by norm_cast
    constructor
    · linarith
    · linarith
  · unfold codebook
    rw [toCodes_eq [l] (fun i => i) (i := l / 2 + m) (d := 0) (by simp)]
    simp only [List.getD_cons_zero, below, List.take_zero, List.prod_nil, Nat.div_one]
    rw [Nat.mod_eq_of_lt (by omega)]
    have h1 : (1 : ℚ) ≤ (l / 2 : Nat) := by exact_mod_cast (show 1 ≤ l / 2 by omega)
    rw [div_mul_cancel₀ _ (by linarith)]
    push_cast
    ring

end Verif.Fsq
