import Verif.Kern.Interp
import Verif.Kern.InterpSpec
import Verif.Kern.PropsConv2
import Verif.Kern.PropsConv3
import Mathlib.Algebra.BigOperators.Intervals
import Mathlib.Algebra.Order.BigOperators.Ring.Finset
import Mathlib.Tactic.FieldSimp
import Mathlib.Algebra.BigOperators.Field

/-! Lemmas for C129. -/

namespace Verif.Kern

open Verif.Tensor (numel InB lin lin_lt lin_inj)

/-! ### One axis -/

theorem scaleOf_shrink {align : Bool} {n o : Nat} (h : o ≠ 1 ∨ align = true) : scaleOf align n o = shrink align n o := by
  unfold scaleOf shrink
  by_cases ho : o = 1
  · subst ho
    rcases h with h | h
    · exact absurd rfl h
    · simp [h]
  · rw [if_neg ho]

theorem srcPos_resize {align : Bool} {n o : Nat} (h : o ≠ 1 ∨ align = true) (t : Nat) :
    srcPos align (scaleOf align n o) t = resizePos align n o t := by
  rw [scaleOf_shrink h]
  unfold srcPos shrink resizePos
  cases align <;> simp

theorem clampIdx_edge {n : Nat} (hn : 0 < n) (k : Int) : clampIdx k n = edge n k := by
  unfold clampIdx edge
  omega

theorem edge_lt {n : Nat} (hn : 0 < n) (k : Int) : edge n k < n := by
  unfold edge
  omega

theorem edge_one (k : Int) : edge 1 k = 0 := by
  unfold edge
  omega

theorem nearest_of {n : Nat} (hn : 0 < n) {s : ℝ} {k : Int} (h1 : s - 1 / 2 ≤ k) (h2 : (k : ℝ) ≤ s + 1 / 2) :
    IsNearest n s (edge n k) := by
  refine ⟨edge_lt hn k, fun j hj => ?_⟩
  obtain ⟨e, he⟩ : ∃ e, e = edge n k := ⟨_, rfl⟩
  rw [← he]
  rcases le_or_gt k 0 with hk | hk
  · have : e = 0 := by unfold edge at he; omega
    subst this
    have hk' : (k : ℝ) ≤ 0 := by exact_mod_cast hk
    have hj' : (0 : ℝ) ≤ j := by positivity
    rcases Nat.eq_zero_or_pos j with rfl | hj0
    · rfl
    have hj1 : (1 : ℝ) ≤ j := by exact_mod_cast hj0
    rw [Nat.cast_zero, sub_zero, abs_le]
    have : (j : ℝ) - s ≤ |s - j| := by rw [abs_sub_comm]; exact le_abs_self _
    constructor <;> linarith
  · rcases le_or_gt (n - 1 : Int) k with hk2 | hk2
    · have : (e : Int) = n - 1 := by unfold edge at he; omega
      have he' : (e : ℝ) = (n : ℝ) - 1 := by exact_mod_cast this
      rcases Nat.eq_or_lt_of_le (show j ≤ n - 1 by omega) with hj1 | hj1
      · have : j = e := by omega
        rw [this]
      have hj' : (j : ℝ) + 1 ≤ e := by exact_mod_cast (by omega : j + 1 ≤ e)
      have hk' : (e : ℝ) ≤ k := by rw [he']; exact_mod_cast hk2
      have : s - j ≤ |s - j| := le_abs_self _
      rw [abs_le]
      constructor <;> linarith
    · have : (e : Int) = k := by unfold edge at he; omega
      have he' : (e : ℝ) = (k : ℝ) := by exact_mod_cast this
      rw [he']
      have hs : |s - k| ≤ 1 / 2 := by rw [abs_le]; constructor <;> linarith
      rcases lt_trichotomy (j : Int) k with hj1 | hj1 | hj1
      · have hj' : (j : ℝ) + 1 ≤ k := by exact_mod_cast hj1
        have : s - j ≤ |s - j| := le_abs_self _
        linarith
      · have hj' : (j : ℝ) = k := by exact_mod_cast hj1
        rw [hj']
      · have hj' : (k : ℝ) + 1 ≤ j := by exact_mod_cast hj1
        have : (j : ℝ) - s ≤ |s - j| := by rw [abs_sub_comm]; exact le_abs_self _
        linarith

theorem cRound_near (s : ℝ) : s - 1 / 2 ≤ cRound s ∧ (cRound s : ℝ) ≤ s + 1 / 2 := by
  unfold cRound
  split
  · have h1 := Int.floor_le (s + 1 / 2)
    have h2 := Int.lt_floor_add_one (s + 1 / 2)
    constructor <;> linarith
  · have h1 := Int.floor_le (-s + 1 / 2)
    have h2 := Int.lt_floor_add_one (-s + 1 / 2)
    push_cast
    constructor <;> linarith

theorem nearIdx_lt {align : Bool} {n : Nat} (hn : 0 < n) (o t : Nat) : nearIdx align n o t < n := by
  unfold nearIdx
  rw [clampIdx_edge hn]
  exact edge_lt hn _

theorem nearIdx_spec {align : Bool} {n o : Nat} (hn : 0 < n) (h : Fair align n o) (t : Nat) :
    IsNearest n (resizePos align n o t) (nearIdx align n o t) := by
  by_cases h1 : n = 1
  · subst h1
    have := nearIdx_lt (align := align) (n := 1) (by decide) o t
    refine ⟨this, fun j hj => ?_⟩
    have : nearIdx align 1 o t = j := by omega
    rw [this]
  · have h' : o ≠ 1 ∨ align = true := by
      rcases h with h | h | h
      · exact .inl h
      · exact .inr h
      · exact absurd h h1
    unfold nearIdx
    rw [clampIdx_edge hn, srcPos_resize h']
    exact nearest_of hn (cRound_near _).1 (cRound_near _).2

theorem hat_two {n a : Nat} (ha : a < n) {w : ℝ} (h0 : 0 ≤ w) (h1 : w < 1) (hw : w = 0 ∨ a + 1 < n) (f : Nat → ℝ) :
    ∑ i ∈ Finset.range n, max 0 (1 - |(a : ℝ) + w - i|) * f i = (1 - w) * f a + w * f (a + 1) := by
  have far : ∀ i : Nat, i ≠ a → i ≠ a + 1 → max 0 (1 - |(a : ℝ) + w - i|) = 0 := by
    intro i hi hi'
    rw [max_eq_left_iff, sub_nonpos]
    rcases lt_or_gt_of_ne hi with h | h
    · have : (i : ℝ) + 1 ≤ a := by exact_mod_cast h
      exact le_trans (by linarith) (le_abs_self _)
    · have : (a : ℝ) + 2 ≤ i := by exact_mod_cast (by omega : a + 2 ≤ i)
      exact le_trans (by linarith) (neg_le_abs _)
  have at0 : max 0 (1 - |(a : ℝ) + w - a|) = 1 - w := by
    rw [show (a : ℝ) + w - a = w by ring, abs_of_nonneg h0, max_eq_right (by linarith)]
  rcases hw with rfl | hn
  · rw [Finset.sum_eq_single a]
    · rw [at0]; ring
    · intro i _ hi
      by_cases h' : i = a + 1
      · subst h'
        have : max 0 (1 - |(a : ℝ) + 0 - ((a + 1 : Nat) : ℝ)|) = 0 := by
          push_cast
          rw [show (a : ℝ) + 0 - (a + 1) = -1 by ring]
          norm_num
        rw [this, zero_mul]
      · rw [far i hi h', zero_mul]
    · intro h; exact absurd (Finset.mem_range.mpr ha) h
  · rw [Finset.sum_eq_add a (a + 1) (by omega)]
    · have : max 0 (1 - |(a : ℝ) + w - ((a + 1 : Nat) : ℝ)|) = w := by
        push_cast
        rw [show (a : ℝ) + w - (a + 1) = -(1 - w) by ring, abs_neg, abs_of_nonneg (by linarith), max_eq_right (by linarith)]
        ring
      rw [at0, this]
    · intro i _ hi
      rw [far i hi.1 hi.2, zero_mul]
    · intro h; exact absurd (Finset.mem_range.mpr ha) h
    · intro h; exact absurd (Finset.mem_range.mpr hn) h

theorem lin_of {n : Nat} (hn : 0 < n) (s : ℝ) (f : Nat → ℝ) :
    (1 - (s - (⌊s⌋ : ℝ))) * f (clampIdx ⌊s⌋ n) + (s - (⌊s⌋ : ℝ)) * f (clampIdx (⌊s⌋ + 1) n) = linAt n s f := by
  rw [clampIdx_edge hn, clampIdx_edge hn]
  have h1 := Int.floor_le s
  have h2 := Int.lt_floor_add_one s
  unfold linAt
  have hn1 : (0 : ℝ) ≤ (n : ℝ) - 1 := by
    have : (1 : ℝ) ≤ n := by exact_mod_cast hn
    linarith
  rcases lt_or_ge s 0 with hs | hs
  · have hq : ⌊s⌋ ≤ -1 := by
      have : (⌊s⌋ : ℝ) < 0 := by linarith
      have : ⌊s⌋ < 0 := by exact_mod_cast this
      omega
    have e1 : edge n ⌊s⌋ = 0 := by unfold edge; omega
    have e2 : edge n (⌊s⌋ + 1) = 0 := by unfold edge; omega
    rw [e1, e2, max_eq_left (le_trans (min_le_left _ _) hs.le)]
    have := hat_two hn (w := 0) le_rfl one_pos (.inl rfl) f
    rw [Nat.cast_zero, add_zero] at this
    rw [this]; ring
  · rcases le_or_gt ((n : ℝ) - 1) s with hs2 | hs2
    · have hq : (n : Int) - 1 ≤ ⌊s⌋ := by
        rw [Int.le_floor]; push_cast; exact hs2
      have e1 : edge n ⌊s⌋ = n - 1 := by unfold edge; omega
      have e2 : edge n (⌊s⌋ + 1) = n - 1 := by unfold edge; omega
      rw [e1, e2, min_eq_right hs2, max_eq_right hn1]
      have := hat_two (show n - 1 < n by omega) (w := 0) le_rfl one_pos (.inl rfl) f
      rw [add_zero, Nat.cast_sub hn, Nat.cast_one] at this
      rw [this]; ring
    · rw [min_eq_left hs2.le, max_eq_right hs]
      have q0 : 0 ≤ ⌊s⌋ := Int.floor_nonneg.mpr hs
      have q1 : ⌊s⌋ + 1 < n := by
        have : (⌊s⌋ : ℝ) < (n : ℝ) - 1 := by linarith
        have : ⌊s⌋ < (n : Int) - 1 := by exact_mod_cast this
        omega
      obtain ⟨a, ha⟩ : ∃ a : Nat, ⌊s⌋ = a := ⟨⌊s⌋.toNat, by omega⟩
      have e1 : edge n ⌊s⌋ = a := by unfold edge; omega
      have e2 : edge n (⌊s⌋ + 1) = a + 1 := by unfold edge; omega
      rw [e1, e2]
      have hca : (⌊s⌋ : ℝ) = a := by rw [ha]; simp
      have := hat_two (n := n) (a := a) (w := s - (⌊s⌋ : ℝ)) (by omega) (by linarith) (by linarith) (.inr (by omega)) f
      rw [show (a : ℝ) + (s - (⌊s⌋ : ℝ)) = s by rw [hca]; ring] at this
      rw [this]

theorem linAt_one (s : ℝ) (f : Nat → ℝ) : linAt 1 s f = f 0 := by
  unfold linAt
  rw [Finset.sum_range_one]
  have : max 0 (min s (((1 : Nat) : ℝ) - 1)) = 0 := by simp
  rw [this]
  simp

theorem lerp_lin {align : Bool} {n o : Nat} (hn : 0 < n) (h : Fair align n o) (t : Nat) (f : Nat → ℝ) :
    lerp align n o t f = linAt n (resizePos align n o t) f := by
  by_cases h1 : n = 1
  · subst h1
    unfold lerp
    dsimp only
    rw [lin_of (by decide), linAt_one, linAt_one]
  · have h' : o ≠ 1 ∨ align = true := by
      rcases h with h | h | h
      · exact .inl h
      · exact .inr h
      · exact absurd h h1
    unfold lerp
    dsimp only
    rw [srcPos_resize h', lin_of hn]

theorem linAt_congr {n : Nat} {s : ℝ} {f g : Nat → ℝ} (h : ∀ i < n, f i = g i) : linAt n s f = linAt n s g :=
  Finset.sum_congr rfl fun i hi => by rw [h i (Finset.mem_range.mp hi)]

/-- The kernel vanishes at distance two and beyond, so the four terms are all. -/
theorem keys_far {x : ℝ} (h : 2 ≤ |x|) : keys x = 0 := by
  unfold keys
  rw [if_neg (by linarith), if_neg (by linarith)]

theorem icc4 (q : Int) : Finset.Icc (q - 1) (q + 2) = {q - 1, q, q + 1, q + 2} := by
  ext k
  simp only [Finset.mem_Icc, Finset.mem_insert, Finset.mem_singleton]
  omega

theorem cubic_of {n : Nat} (hn : 0 < n) (s : ℝ) (f : Nat → ℝ) :
    cubic (f (clampIdx (⌊s⌋ - 1) n)) (f (clampIdx ⌊s⌋ n)) (f (clampIdx (⌊s⌋ + 1) n)) (f (clampIdx (⌊s⌋ + 2) n)) (s - (⌊s⌋ : ℝ)) =
      cubicAt n s f := by
  simp only [clampIdx_edge hn]
  have h1 := Int.floor_le s
  have h2 := Int.lt_floor_add_one s
  unfold cubicAt
  rw [icc4, Finset.sum_insert (by simp; omega), Finset.sum_insert (by simp), Finset.sum_insert (by simp), Finset.sum_singleton]
  obtain ⟨w, hw⟩ : ∃ w, w = s - (⌊s⌋ : ℝ) := ⟨_, rfl⟩
  have w0 : 0 ≤ w := by rw [hw]; linarith
  have w1 : w < 1 := by rw [hw]; linarith
  push_cast
  rw [show s - ((⌊s⌋ : ℝ) - 1) = w + 1 by rw [hw]; ring, show s - ((⌊s⌋ : ℝ) + 1) = w - 1 by rw [hw]; ring,
    show s - ((⌊s⌋ : ℝ) + 2) = w - 2 by rw [hw]; ring, ← hw]
  have k1 : keys (w + 1) = -0.5 * w ^ 3 + w ^ 2 - 0.5 * w := by
    unfold keys
    rw [abs_of_nonneg (by linarith)]
    split
    · have : w = 0 := by linarith
      subst this; norm_num
    · rw [if_pos (by linarith)]; ring
  have k2 : keys w = 1.5 * w ^ 3 - 2.5 * w ^ 2 + 1 := by
    unfold keys
    rw [abs_of_nonneg w0, if_pos w1.le]; ring
  have k3 : keys (w - 1) = -1.5 * w ^ 3 + 2 * w ^ 2 + 0.5 * w := by
    unfold keys
    rw [abs_of_nonpos (by linarith), if_pos (by linarith)]; ring
  have k4 : keys (w - 2) = 0.5 * w ^ 3 - 0.5 * w ^ 2 := by
    unfold keys
    rw [abs_of_nonpos (by linarith), if_neg (by linarith)]
    split
    · ring
    · have : w = 0 := by linarith
      subst this; norm_num
  rw [k1, k2, k3, k4]
  unfold cubic
  rw [show (2.0 : ℝ) = 2 by norm_num]
  ring

theorem cubicAt_one (s : ℝ) (f : Nat → ℝ) : cubicAt 1 s f = f 0 := by
  rw [← cubic_of (by decide)]
  simp only [clampIdx_edge (n := 1) (by decide), edge_one]
  unfold cubic
  rw [show (2.0 : ℝ) = 2 by norm_num]
  ring

theorem cubicAxis_cubic {align : Bool} {n o : Nat} (hn : 0 < n) (h : Fair align n o) (t : Nat) (f : Nat → ℝ) :
    cubicAxis align n o t f = cubicAt n (resizePos align n o t) f := by
  by_cases h1 : n = 1
  · subst h1
    unfold cubicAxis
    dsimp only
    rw [cubic_of (by decide), cubicAt_one, cubicAt_one]
  · have h' : o ≠ 1 ∨ align = true := by
      rcases h with h | h | h
      · exact .inl h
      · exact .inr h
      · exact absurd h h1
    unfold cubicAxis
    dsimp only
    rw [srcPos_resize h', cubic_of hn]

theorem cubicAt_congr {n : Nat} (hn : 0 < n) {s : ℝ} {f g : Nat → ℝ} (h : ∀ i < n, f i = g i) : cubicAt n s f = cubicAt n s g :=
  Finset.sum_congr rfl fun k _ => by rw [h _ (edge_lt hn k)]

/-! ### The Gaussian -/

theorem sum_icc (r : Nat) (F : Int → ℝ) :
    ∑ k ∈ Finset.Icc (-(r : Int)) r, F k = ∑ k ∈ Finset.range (2 * r + 1), F ((k : Int) - r) := by
  symm
  refine Finset.sum_bij' (fun k _ => (k : Int) - r) (fun k _ => (k + r).toNat) ?_ ?_ ?_ ?_ ?_
  · intro k hk; simp only [Finset.mem_range, Finset.mem_Icc] at *; omega
  · intro k hk; simp only [Finset.mem_range, Finset.mem_Icc] at *; omega
  · intro k hk; simp only [Finset.mem_range] at *; omega
  · intro k hk; simp only [Finset.mem_Icc] at *; omega
  · intro k _; rfl

theorem blurAxis_gauss {r n : Nat} (hn : 0 < n) (sigma : ℝ) (t : Nat) (f : Nat → ℝ) :
    blurAxis r sigma n t f = gaussAt r sigma n t f := by
  unfold blurAxis gaussAt
  rw [sum_icc, sum_icc, each_add (g := fun k => gaussW r sigma k * f (clampIdx ((t : Int) + ((k : Int) - r)) n)) (by intros; rfl),
    zero_add, Finset.sum_div]
  refine Finset.sum_congr rfl fun k _ => ?_
  unfold gaussW
  rw [each_add (g := gauss r sigma) (by intros; rfl), zero_add, clampIdx_edge hn]
  unfold gauss
  rw [div_mul_eq_mul_div]

theorem gaussAt_congr {r n : Nat} (hn : 0 < n) {sigma : ℝ} {t : Nat} {f g : Nat → ℝ} (h : ∀ i < n, f i = g i) :
    gaussAt r sigma n t f = gaussAt r sigma n t g := by
  unfold gaussAt
  congr 1
  exact Finset.sum_congr rfl fun k _ => by rw [h _ (edge_lt hn _)]

/-! ### Stores -/

/-- One store per output element, in any order. -/
theorem computes_of {us : List (Upd ℝ)} {shape : List Nat} {val : List Nat → ℝ}
    (hmem : ∀ u ∈ us, ∃ ix, InB shape ix ∧ u = Upd.put (lin shape ix) (val ix))
    (hcov : ∀ ix, InB shape ix → Upd.put (lin shape ix) (val ix) ∈ us) : Yields [[us]] shape val := by
  intro m m' hex
  rw [exec_single hex]
  constructor
  · intro ix hix
    rw [out_get hix]
    refine run_agree ?_ ⟨_, hcov ix hix, rfl⟩ m
    intro u hu hua y
    obtain ⟨jx, hj, rfl⟩ := hmem u hu
    have : jx = ix := lin_inj hj hix hua
    subst this
    rfl
  · intro i hi
    refine run_other ?_ m
    intro u hu e
    obtain ⟨jx, hj, rfl⟩ := hmem u hu
    have := lin_lt hj
    simp only [Upd.put] at e
    omega

theorem loop3_computes {N C L : Nat} {v : Nat → Nat → Nat → ℝ} {val : List Nat → ℝ}
    (h : ∀ n < N, ∀ c < C, ∀ l < L, v n c l = val [n, c, l]) : Yields [[loop3 N C L v]] [N, C, L] val := by
  have e : ∀ n c l, (n * C + c) * L + l = lin [N, C, L] [n, c, l] := by intro n c l; rw [lin3]; ring
  refine computes_of ?_ ?_
  · intro u hu
    simp only [loop3, List.mem_flatMap, List.mem_map, List.mem_range] at hu
    obtain ⟨n, hn, c, hc, l, hl, rfl⟩ := hu
    exact ⟨[n, c, l], ⟨hn, hc, hl, trivial⟩, by rw [h n hn c hc l hl, e]⟩
  · intro ix hix
    obtain ⟨n, c, l, rfl, hn, hc, hl⟩ := inB3 hix
    simp only [loop3, List.mem_flatMap, List.mem_map, List.mem_range]
    exact ⟨n, hn, c, hc, l, hl, by rw [h n hn c hc l hl, e]⟩

theorem loop4_computes {N C H W : Nat} {v : Nat → Nat → Nat → Nat → ℝ} {val : List Nat → ℝ}
    (h : ∀ n < N, ∀ c < C, ∀ y < H, ∀ z < W, v n c y z = val [n, c, y, z]) : Yields [[loop4 N C H W v]] [N, C, H, W] val := by
  have e : ∀ n c y z, ((n * C + c) * H + y) * W + z = lin [N, C, H, W] [n, c, y, z] := by intro n c y z; rw [lin4]; ring
  refine computes_of ?_ ?_
  · intro u hu
    simp only [loop4, List.mem_flatMap, List.mem_map, List.mem_range] at hu
    obtain ⟨n, hn, c, hc, y, hy, z, hz, rfl⟩ := hu
    exact ⟨[n, c, y, z], ⟨hn, hc, hy, hz, trivial⟩, by rw [h n hn c hc y hy z hz, e]⟩
  · intro ix hix
    obtain ⟨n, c, y, z, rfl, hn, hc, hy, hz⟩ := inB4 hix
    simp only [loop4, List.mem_flatMap, List.mem_map, List.mem_range]
    exact ⟨n, hn, c, hc, y, hy, z, hz, by rw [h n hn c hc y hy z hz, e]⟩

theorem lin5' (N C D H W n c d y z : Nat) :
    (((n * C + c) * D + d) * H + y) * W + z = lin [N, C, D, H, W] [n, c, d, y, z] := by rw [lin5]; ring

theorem loop5_computes {N C D H W : Nat} {v : Nat → Nat → Nat → Nat → Nat → ℝ} {val : List Nat → ℝ}
    (h : ∀ n < N, ∀ c < C, ∀ d < D, ∀ y < H, ∀ z < W, v n c d y z = val [n, c, d, y, z]) :
    Yields [[loop5 N C D H W v]] [N, C, D, H, W] val := by
  refine computes_of ?_ ?_
  · intro u hu
    simp only [loop5, List.mem_flatMap, List.mem_map, List.mem_range] at hu
    obtain ⟨n, hn, c, hc, d, hd, y, hy, z, hz, rfl⟩ := hu
    exact ⟨[n, c, d, y, z], ⟨hn, hc, hd, hy, hz, trivial⟩, by rw [h n hn c hc d hd y hy z hz, lin5' N]⟩
  · intro ix hix
    obtain ⟨n, c, d, y, z, rfl, hn, hc, hd, hy, hz⟩ := inB5 hix
    simp only [loop5, List.mem_flatMap, List.mem_map, List.mem_range]
    exact ⟨n, hn, c, hc, d, hd, y, hy, z, hz, by rw [h n hn c hc d hd y hy z hz, lin5' N]⟩

theorem nearest3d_computes {align : Bool} {N C D H W OD OH OW : Nat} {x : Nat → ℝ} {val : List Nat → ℝ}
    (h : ∀ n < N, ∀ c < C, ∀ d < OD, ∀ y < OH, ∀ z < OW,
      x (lin [N, C, D, H, W] [n, c, nearIdx align D OD d, nearIdx align H OH y, nearIdx align W OW z]) = val [n, c, d, y, z]) :
    Yields [[nearest3d align N C D H W OD OH OW x]] [N, C, OD, OH, OW] val := by
  have key : ∀ n c d y z, (⟨((n * C + c) * OD + d) * OH * OW + (((0 * 1 + 0) * OH + y) * OW + z),
      fun _ => x (((n * C + c) * D + nearIdx align D OD d) * H * W +
        (((0 * 1 + 0) * H + nearIdx align H OH y) * W + nearIdx align W OW z))⟩ : Upd ℝ) =
      Upd.put (lin [N, C, OD, OH, OW] [n, c, d, y, z])
        (x (lin [N, C, D, H, W] [n, c, nearIdx align D OD d, nearIdx align H OH y, nearIdx align W OW z])) := by
    intro n c d y z
    rw [← lin5' N C OD, ← lin5' N C D]
    unfold Upd.put
    congr 1
    · ring
    · funext _; congr 1; ring
  refine computes_of ?_ ?_
  · intro u hu
    simp only [nearest3d, nearest2d, loop4, List.mem_flatMap, List.mem_map, List.mem_range] at hu
    obtain ⟨d, hd, n, hn, c, hc, u, ⟨n', hn', c', hc', y, hy, z, hz, rfl⟩, rfl⟩ := hu
    have e1 : n' = 0 := by omega
    have e2 : c' = 0 := by omega
    subst e1 e2
    exact ⟨[n, c, d, y, z], ⟨hn, hc, hd, hy, hz, trivial⟩, by rw [← h n hn c hc d hd y hy z hz, ← key]; rfl⟩
  · intro ix hix
    obtain ⟨n, c, d, y, z, rfl, hn, hc, hd, hy, hz⟩ := inB5 hix
    simp only [nearest3d, nearest2d, loop4, List.mem_flatMap, List.mem_map, List.mem_range]
    exact ⟨d, hd, n, hn, c, hc, _, ⟨0, by omega, 0, by omega, y, hy, z, hz, rfl⟩, by rw [← h n hn c hc d hd y hy z hz, ← key]; rfl⟩

end Verif.Kern
