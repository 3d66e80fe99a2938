import Verif.Codec.PropsAudio
import Mathlib.Tactic.FieldSimp

/-!
# C176: the three clips of a recording
-/

namespace Verif.Codec

/-! ## Fractions -/

/-- `f` is the value `v` with denominator at most `D` and numerator at most `N`. -/
def Ok (f : Fr) (v : ℚ) (N D : Int) : Prop := f.val = v ∧ 0 < f.den ∧ f.den ≤ D ∧ |f.num| ≤ N

theorem mkFr_ok {n d : Int} (hd : 0 < d) : ∃ f, mkFr n d = some f ∧ Ok f ((n : ℚ) / d) |n| d := by
  unfold mkFr
  rw [if_neg hd.ne']
  by_cases hn : n = 0
  · rw [if_pos hn]
    refine ⟨_, rfl, ?_, by decide, hd, by simp [hn]⟩
    rw [hn]
    simp [Fr.val]
  · rw [if_neg hn]
    obtain ⟨g, hg⟩ : ∃ g : Int, g = Int.gcd n d := ⟨_, rfl⟩
    have hg0 : 0 < g := by
      rw [hg]
      exact_mod_cast Int.gcd_pos_of_ne_zero_left d hn
    obtain ⟨n', hn'⟩ : g ∣ n := hg ▸ Int.gcd_dvd_left n d
    obtain ⟨d', hd'⟩ : g ∣ d := hg ▸ Int.gcd_dvd_right n d
    simp only [← hg]
    have e1 : n.tdiv g = n' := by
      rw [hn']
      exact Int.mul_tdiv_cancel_left _ hg0.ne'
    have e2 : d.tdiv g = d' := by
      rw [hd']
      exact Int.mul_tdiv_cancel_left _ hg0.ne'
    have hd0 : 0 < d' := by
      rw [hd'] at hd
      exact pos_of_mul_pos_right hd hg0.le
    rw [e1, e2, if_neg (by omega)]
    refine ⟨_, rfl, ?_, hd0, ?_, ?_⟩
    · show (n' : ℚ) / d' = n / d
      rw [hn', hd']
      push_cast
      have : (g : ℚ) ≠ 0 := by exact_mod_cast hg0.ne'
      have : (d' : ℚ) ≠ 0 := by exact_mod_cast hd0.ne'
      field_simp
    · show d' ≤ d
      rw [hd']
      nlinarith
    · show |n'| ≤ |n|
      rw [hn', abs_mul, abs_of_pos hg0]
      nlinarith [abs_nonneg n']

theorem int32_ok {x : Int} (h : |x| < 2147483648) : int32 x = some x := by
  unfold int32
  rw [abs_lt] at h
  rw [if_pos]
  norm_num
  omega

theorem den_val {f : Fr} (h : 0 < f.den) : (f.den : ℚ) ≠ 0 := by exact_mod_cast h.ne'

theorem add_ok {a b : Fr} {v w : ℚ} {N D N' D' : Int} (ha : Ok a v N D) (hb : Ok b w N' D') (h : N * D' + N' * D < 2147483648) (hd : D * D' < 2147483648) :
    ∃ f, a.add b = some f ∧ Ok f (v + w) (N * D' + N' * D) (D * D') := by
  obtain ⟨rfl, a2, a3, a4⟩ := ha
  obtain ⟨rfl, b2, b3, b4⟩ := hb
  have h1 : |a.num * b.den| ≤ N * D' := by
    rw [abs_mul, abs_of_pos b2]
    exact mul_le_mul a4 b3 b2.le (le_trans (abs_nonneg _) a4)
  have h2 : |b.num * a.den| ≤ N' * D := by
    rw [abs_mul, abs_of_pos a2]
    exact mul_le_mul b4 a3 a2.le (le_trans (abs_nonneg _) b4)
  have h3 : a.den * b.den ≤ D * D' := mul_le_mul a3 b3 b2.le (le_trans a2.le a3)
  have h0 : 0 < a.den * b.den := mul_pos a2 b2
  have h4 := abs_add_le (a.num * b.den) (b.num * a.den)
  have p1 := abs_nonneg (a.num * b.den)
  have p2 := abs_nonneg (b.num * a.den)
  obtain ⟨f, hf, f1, f2, f3, f4⟩ := mkFr_ok (n := a.num * b.den + b.num * a.den) h0
  refine ⟨f, ?_, ?_, f2, le_trans f3 h3, le_trans f4 (by omega)⟩
  · unfold Fr.add
    rw [int32_ok (by omega), int32_ok (by omega)]
    simp only [Option.bind_eq_bind, Option.bind_some]
    rw [int32_ok (by omega), int32_ok (by rw [abs_of_pos h0]; omega)]
    exact hf
  · rw [f1]
    unfold Fr.val
    have := den_val a2
    have := den_val b2
    push_cast
    field_simp

theorem sub_ok {a b : Fr} {v w : ℚ} {N D N' D' : Int} (ha : Ok a v N D) (hb : Ok b w N' D') (h : N * D' + N' * D < 2147483648) (hd : D * D' < 2147483648) :
    ∃ f, a.sub b = some f ∧ Ok f (v - w) (|a.num * b.den - b.num * a.den|) (D * D') := by
  obtain ⟨rfl, a2, a3, a4⟩ := ha
  obtain ⟨rfl, b2, b3, b4⟩ := hb
  have h1 : |a.num * b.den| ≤ N * D' := by
    rw [abs_mul, abs_of_pos b2]
    exact mul_le_mul a4 b3 b2.le (le_trans (abs_nonneg _) a4)
  have h2 : |b.num * a.den| ≤ N' * D := by
    rw [abs_mul, abs_of_pos a2]
    exact mul_le_mul b4 a3 a2.le (le_trans (abs_nonneg _) b4)
  have h3 : a.den * b.den ≤ D * D' := mul_le_mul a3 b3 b2.le (le_trans a2.le a3)
  have h0 : 0 < a.den * b.den := mul_pos a2 b2
  have h4 := abs_sub (a.num * b.den) (b.num * a.den)
  have p1 := abs_nonneg (a.num * b.den)
  have p2 := abs_nonneg (b.num * a.den)
  obtain ⟨f, hf, f1, f2, f3, f4⟩ := mkFr_ok (n := a.num * b.den - b.num * a.den) h0
  refine ⟨f, ?_, ?_, f2, le_trans f3 h3, f4⟩
  · unfold Fr.sub
    rw [int32_ok (by omega), int32_ok (by omega)]
    simp only [Option.bind_eq_bind, Option.bind_some]
    rw [int32_ok (by omega), int32_ok (by rw [abs_of_pos h0]; omega)]
    exact hf
  · rw [f1]
    unfold Fr.val
    have := den_val a2
    have := den_val b2
    push_cast
    field_simp

theorem mul_ok {a b : Fr} {v w : ℚ} {N D N' D' : Int} (ha : Ok a v N D) (hb : Ok b w N' D') (h : N * N' < 2147483648) (hd : D * D' < 2147483648) :
    ∃ f, a.mul b = some f ∧ Ok f (v * w) (N * N') (D * D') := by
  obtain ⟨rfl, a2, a3, a4⟩ := ha
  obtain ⟨rfl, b2, b3, b4⟩ := hb
  have h1 : |a.num * b.num| ≤ N * N' := by
    rw [abs_mul]
    exact mul_le_mul a4 b4 (abs_nonneg _) (le_trans (abs_nonneg _) a4)
  have h3 : a.den * b.den ≤ D * D' := mul_le_mul a3 b3 b2.le (le_trans a2.le a3)
  have h0 : 0 < a.den * b.den := mul_pos a2 b2
  obtain ⟨f, hf, f1, f2, f3, f4⟩ := mkFr_ok (n := a.num * b.num) h0
  refine ⟨f, ?_, ?_, f2, le_trans f3 h3, le_trans f4 h1⟩
  · unfold Fr.mul
    rw [int32_ok (by omega), int32_ok (by rw [abs_of_pos h0]; omega)]
    exact hf
  · rw [f1]
    unfold Fr.val
    have := den_val a2
    have := den_val b2
    push_cast
    field_simp

theorem div_ok {a b : Fr} {v w : ℚ} {N D N' D' : Int} (ha : Ok a v N D) (hb : Ok b w N' D') (hp : 0 < b.num) (h : N * D' < 2147483648) (hd : D * N' < 2147483648) :
    ∃ f, a.div b = some f ∧ Ok f (v / w) (N * D') (D * N') := by
  obtain ⟨rfl, a2, a3, a4⟩ := ha
  obtain ⟨rfl, b2, b3, b4⟩ := hb
  rw [abs_of_pos hp] at b4
  have h1 : |a.num * b.den| ≤ N * D' := by
    rw [abs_mul, abs_of_pos b2]
    exact mul_le_mul a4 b3 b2.le (le_trans (abs_nonneg _) a4)
  have h3 : a.den * b.num ≤ D * N' := mul_le_mul a3 b4 hp.le (le_trans a2.le a3)
  have h0 : 0 < a.den * b.num := mul_pos a2 hp
  obtain ⟨f, hf, f1, f2, f3, f4⟩ := mkFr_ok (n := a.num * b.den) h0
  refine ⟨f, ?_, ?_, f2, le_trans f3 h3, le_trans f4 h1⟩
  · unfold Fr.div
    rw [if_neg hp.ne', int32_ok (by omega)]
    simp only [Option.bind_eq_bind, Option.bind_some]
    rw [int32_ok (by rw [abs_of_pos h0]; omega)]
    exact hf
  · rw [f1]
    unfold Fr.val
    have := den_val a2
    have := den_val b2
    have : (b.num : ℚ) ≠ 0 := by exact_mod_cast hp.ne'
    push_cast
    field_simp

theorem whole_ok (k : Int) : Ok ⟨k, 1⟩ k |k| 1 := ⟨by simp [Fr.val], Int.one_pos, le_refl _, le_refl _⟩

theorem mkFr_nat {s r : Nat} (hs : 0 < s) (hr : 0 < r) : mkFr s r = some ⟨(s / Nat.gcd s r : Nat), (r / Nat.gcd s r : Nat)⟩ := by
  have hrn : (r : Int) ≠ 0 := by exact_mod_cast hr.ne'
  have hsn : (s : Int) ≠ 0 := by exact_mod_cast hs.ne'
  unfold mkFr
  rw [if_neg hrn, if_neg hsn]
  simp only [Int.gcd_natCast_natCast]
  have e1 : (s : Int).tdiv (Nat.gcd s r : Nat) = (s / Nat.gcd s r : Nat) := (Int.ofNat_tdiv _ _).symm
  have e2 : (r : Int).tdiv (Nat.gcd s r : Nat) = (r / Nat.gcd s r : Nat) := (Int.ofNat_tdiv _ _).symm
  rw [e1, e2, if_neg (not_lt.mpr (Int.natCast_nonneg _))]

/-- The duration in lowest terms. -/
theorem duration_eq {s r : Nat} (hs : 0 < s) (hr : 0 < r) (hs' : (s : Int) < 2147483648) (hr' : (r : Int) < 2147483648) :
    Fr.div ⟨s, 1⟩ ⟨r, 1⟩ = some ⟨(s / Nat.gcd s r : Nat), (r / Nat.gcd s r : Nat)⟩ := by
  have hrn : (r : Int) ≠ 0 := by exact_mod_cast hr.ne'
  have h1 : int32 ((s : Int) * 1) = some (s : Int) := by
    rw [mul_one]
    exact int32_ok (by rw [abs_of_nonneg (Int.natCast_nonneg _)]; exact hs')
  have h2 : int32 (1 * (r : Int)) = some (r : Int) := by
    rw [one_mul]
    exact int32_ok (by rw [abs_of_nonneg (Int.natCast_nonneg _)]; exact hr')
  show (if (r : Int) = 0 then none else (int32 ((s : Int) * 1)).bind fun x => (int32 (1 * (r : Int))).bind fun y => mkFr x y) = _
  rw [if_neg hrn, h1, h2]
  exact mkFr_nat hs hr

theorem trunc_eq {f : Fr} {p q : Nat} {N D : Int} (hq : 0 < q) (h : Ok f ((p : ℚ) / q) N D) : f.num.tdiv f.den = (p / q : Nat) := by
  obtain ⟨hv, hd, _, _⟩ := h
  unfold Fr.val at hv
  have hd' : (f.den : ℚ) ≠ 0 := den_val hd
  have hq' : (q : ℚ) ≠ 0 := by exact_mod_cast hq.ne'
  rw [div_eq_div_iff hd' hq'] at hv
  have hv' : f.num * q = p * f.den := by exact_mod_cast hv
  have hn : 0 ≤ f.num := by
    have : 0 ≤ f.num * q := by rw [hv']; positivity
    have hq0 : (0 : Int) < q := by exact_mod_cast hq
    exact nonneg_of_mul_nonneg_left this hq0
  obtain ⟨n, hn⟩ := Int.eq_ofNat_of_zero_le hn
  obtain ⟨d, hd2⟩ := Int.eq_ofNat_of_zero_le hd.le
  rw [hn, hd2] at hv' ⊢
  rw [hd2] at hd
  have hd0 : 0 < d := by exact_mod_cast hd
  have hv2 : n * q = p * d := by exact_mod_cast hv'
  rw [← Int.ofNat_tdiv]
  congr 1
  rw [← Nat.mul_div_mul_right n d hq, hv2, Nat.mul_comm d q, Nat.mul_div_mul_right _ _ hd0]

/-! ## Clips -/

theorem three_sub : Fr.sub ⟨3, 1⟩ ⟨1, 1⟩ = some ⟨2, 1⟩ := by decide +kernel

theorem two_max : Fr.max ⟨2, 1⟩ ⟨1, 1⟩ = ⟨2, 1⟩ := by
  unfold Fr.max
  rw [if_pos]
  simp only [Fr.val]
  norm_num

theorem sampler_eq {dur d u st nx M : Fr} {k : Nat} (hsub : dur.sub ⟨2, 1⟩ = some d) (hM : Fr.max ⟨0, 1⟩ d = M) (hu : M.div ⟨2, 1⟩ = some u)
    (hst : u.mul ⟨k, 1⟩ = some st) (hnx : u.mul ⟨(k + 1 : Nat), 1⟩ = some nx) (hle : k + 1 < 3 → nx.val ≤ M.val) :
    clipSampler ⟨0, k, false⟩ dur ⟨2, 1⟩ ⟨3, 1⟩ = some (st, if 3 ≤ k + 1 then ⟨0, 0, true⟩ else ⟨0, k + 1, false⟩) := by
  unfold clipSampler
  simp only [hsub, three_sub, two_max, hM, hu, hst, Option.bind_eq_bind, Option.bind_some]
  rw [if_pos (by decide)]
  simp only [hnx, Option.bind_some]
  by_cases h : 3 ≤ k + 1
  · have h3 : (⟨3, 1⟩ : Fr).val ≤ ((k + 1 : Nat) : ℚ) := by
      have : ((3 : Nat) : ℚ) ≤ ((k + 1 : Nat) : ℚ) := by exact_mod_cast h
      simpa [Fr.val] using this
    rw [if_pos (Or.inl h3)]
    simp [h]
  · have h3 : ¬ (⟨3, 1⟩ : Fr).val ≤ ((k + 1 : Nat) : ℚ) := by
      have : ((k + 1 : Nat) : ℚ) < ((3 : Nat) : ℚ) := by exact_mod_cast Nat.lt_of_not_le h
      rw [not_le]
      simpa [Fr.val] using this
    have h4 : ¬ ((⟨3, 1⟩ : Fr).val ≤ ((k + 1 : Nat) : ℚ) ∨ M.val < nx.val) := by
      rw [not_or, not_lt]
      exact ⟨h3, hle (by omega)⟩
    rw [if_neg h4]
    simp [h]

theorem timepoints_eq {dur d u M s0 s1 s2 s3 e0 e1 e2 : Fr} (hsub : dur.sub ⟨2, 1⟩ = some d) (hM : Fr.max ⟨0, 1⟩ d = M) (hu : M.div ⟨2, 1⟩ = some u)
    (h0 : u.mul ⟨(0 : Nat), 1⟩ = some s0) (h1 : u.mul ⟨(1 : Nat), 1⟩ = some s1) (h2 : u.mul ⟨(2 : Nat), 1⟩ = some s2) (h3 : u.mul ⟨(3 : Nat), 1⟩ = some s3)
    (l1 : s1.val ≤ M.val) (l2 : s2.val ≤ M.val)
    (a0 : s0.add ⟨2, 1⟩ = some e0) (a1 : s1.add ⟨2, 1⟩ = some e1) (a2 : s2.add ⟨2, 1⟩ = some e2) :
    timepoints 4 ⟨0, 0, false⟩ ⟨2, 1⟩ ⟨3, 1⟩ dur = some [(s0, e0), (s1, e1), (s2, e2)] := by
  have k0 := sampler_eq hsub hM hu h0 h1 (fun _ => l1)
  have k1 := sampler_eq hsub hM hu h1 h2 (fun _ => l2)
  have k2 := sampler_eq hsub hM hu h2 h3 (fun h => absurd h (by decide))
  rw [if_neg (by decide)] at k0 k1
  rw [if_pos (by decide)] at k2
  simp only [timepoints, k0, k1, k2, a0, a1, a2, Option.bind_eq_bind, Option.bind_some, Bool.false_eq_true, if_false, if_true, pure]

theorem Ok.mono {f : Fr} {v : ℚ} {N D N' D' : Int} (h : Ok f v N D) (hN : N ≤ N') (hD : D ≤ D') : Ok f v N' D' :=
  ⟨h.1, h.2.1, le_trans h.2.2.1 hD, le_trans h.2.2.2 hN⟩

theorem position_eq {f : Fr} {v : ℚ} {N D : Int} {r p q : Nat} (h : Ok f v N D) (hN : N * r < 2147483648) (hD : D * 1 < 2147483648) (hq : 0 < q)
    (e : v * r = (p : ℚ) / q) : ∃ g, f.mul ⟨r, 1⟩ = some g ∧ g.num.tdiv g.den = (p / q : Nat) := by
  have hr := whole_ok (r : Nat)
  rw [abs_of_nonneg (Int.natCast_nonneg _)] at hr
  obtain ⟨g, hg, og⟩ := mul_ok h hr hN hD
  refine ⟨g, hg, trunc_eq hq (N := N * r) (D := D * 1) ?_⟩
  rw [← e]
  simpa using og

theorem clips_eq {s r : Nat} {dur a0 b0 a1 b1 a2 b2 c0 d0 c1 d1 c2 d2 : Fr} (hd : Fr.div ⟨s, 1⟩ ⟨r, 1⟩ = some dur)
    (ht : timepoints 4 ⟨0, 0, false⟩ ⟨2, 1⟩ ⟨3, 1⟩ dur = some [(a0, b0), (a1, b1), (a2, b2)])
    (h0 : a0.mul ⟨r, 1⟩ = some c0) (k0 : b0.mul ⟨r, 1⟩ = some d0) (h1 : a1.mul ⟨r, 1⟩ = some c1) (k1 : b1.mul ⟨r, 1⟩ = some d1)
    (h2 : a2.mul ⟨r, 1⟩ = some c2) (k2 : b2.mul ⟨r, 1⟩ = some d2) :
    clips s r = some [(c0.num.tdiv c0.den, d0.num.tdiv d0.den), (c1.num.tdiv c1.den, d1.num.tdiv d1.den), (c2.num.tdiv c2.den, d2.num.tdiv d2.den)] := by
  unfold clips
  rw [hd, Option.bind_eq_bind, Option.bind_some, ht, Option.bind_eq_bind, Option.bind_some]
  simp only [List.mapM_cons, List.mapM_nil, h0, h1, h2, k0, k1, k2, Option.bind_eq_bind, Option.bind_some, pure]

/-- A recording of at least two seconds gives three clips of two seconds: at the start, in the middle, at the end. -/
theorem C176_clips {s r : Nat} (hr : 0 < r) (h : 2 * r ≤ s) (hb : (3 * (s / Nat.gcd s r) + 8 * (r / Nat.gcd s r)) * r < 2147483648) :
    clips s r = (some [(0, (2 * r : Nat)), (((s - 2 * r) / 2 : Nat), ((s - 2 * r) / 2 + 2 * r : Nat)), ((s - 2 * r : Nat), s)] : Option (List (Int × Int))) := by
  have hs : 0 < s := by omega
  have hg : 0 < Nat.gcd s r := Nat.gcd_pos_of_pos_right _ hr
  have hgr : Nat.gcd s r ≤ r := Nat.le_of_dvd hr (Nat.gcd_dvd_right _ _)
  obtain ⟨a, ha⟩ : ∃ a, a = s / Nat.gcd s r := ⟨_, rfl⟩
  obtain ⟨b, hbd⟩ : ∃ b, b = r / Nat.gcd s r := ⟨_, rfl⟩
  have hsa : a * Nat.gcd s r = s := by rw [ha]; exact Nat.div_mul_cancel (Nat.gcd_dvd_left _ _)
  have hrb : b * Nat.gcd s r = r := by rw [hbd]; exact Nat.div_mul_cancel (Nat.gcd_dvd_right _ _)
  have hb0 : 0 < b := by rw [hbd]; exact Nat.div_pos hgr hg
  have h2 : 2 * b ≤ a := by
    apply Nat.le_of_mul_le_mul_right _ hg
    rw [hsa, Nat.mul_assoc, hrb]
    exact h
  rw [← ha, ← hbd] at hb
  have hsar : s ≤ a * r := by rw [← hsa]; exact Nat.mul_le_mul_left _ hgr
  have hexp : (3 * a + 8 * b) * r = 3 * (a * r) + 8 * (b * r) := by ring
  have hbr : r ≤ b * r := Nat.le_mul_of_pos_left _ hb0
  have hba : b ≤ b * r := Nat.le_mul_of_pos_right _ hr
  have haa : a ≤ a * r := Nat.le_mul_of_pos_right _ hr
  have hB : 3 * (a * r) + 8 * (b * r) < 2147483648 := by
    rw [← hexp]
    exact hb
  obtain ⟨A, hA⟩ : ∃ A, A = a * r := ⟨_, rfl⟩
  obtain ⟨B, hBB⟩ : ∃ B, B = b * r := ⟨_, rfl⟩
  rw [← hA, ← hBB] at hB
  rw [← hA] at hsar haa
  rw [← hBB] at hbr hba
  have hs31 : (s : Int) < 2147483648 := by
    have : (s : Int) < 2147483648 := by omega
    exact this
  have hr31 : (r : Int) < 2147483648 := by
    have : (r : Int) < 2147483648 := by omega
    exact this
  have hdur := duration_eq hs hr hs31 hr31
  rw [← ha, ← hbd] at hdur
  have hbq : (b : ℚ) ≠ 0 := by exact_mod_cast hb0.ne'
  have od : Ok ⟨a, b⟩ ((a : ℚ) / b) a b := ⟨by simp [Fr.val], Int.natCast_pos.mpr hb0, le_refl _, by simp⟩
  have two : Ok ⟨2, 1⟩ 2 2 1 := by simpa using whole_ok 2
  obtain ⟨d, hd, od'⟩ := sub_ok od two (by omega) (by omega)
  have hdn : |((a : Int) * 1 - 2 * b)| ≤ a := by
    rw [abs_of_nonneg (by omega)]
    omega
  have hdv : (a : ℚ) / b - 2 = ((a - 2 * b : Nat) : ℚ) / b := by
    rw [Nat.cast_sub h2]
    push_cast
    field_simp
  rw [hdv] at od'
  have od2 : Ok d (((a - 2 * b : Nat) : ℚ) / b) a (b * 1) := ⟨od'.1, od'.2.1, od'.2.2.1, le_trans od'.2.2.2 hdn⟩
  obtain ⟨M, hM⟩ : ∃ M, Fr.max ⟨0, 1⟩ d = M := ⟨_, rfl⟩
  have oM : Ok M (((a - 2 * b : Nat) : ℚ) / b) a (b * 1) := by
    rw [← hM]
    unfold Fr.max
    have hz : (⟨0, 1⟩ : Fr).val = 0 := by simp [Fr.val]
    split_ifs with hle
    · rw [hz, od2.1] at hle
      have h0 : (0 : ℚ) ≤ ((a - 2 * b : Nat) : ℚ) / b := by positivity
      refine ⟨by rw [hz]; linarith, Int.one_pos, ?_, by simp⟩
      show (1 : Int) ≤ b * 1
      omega
    · exact od2
  obtain ⟨u, hu, ou⟩ := div_ok oM two (by decide) (by omega) (by omega)
  obtain ⟨s0, h0, o0⟩ := mul_ok ou (whole_ok (0 : Nat)) (by simp) (by omega)
  obtain ⟨s1, h1, o1⟩ := mul_ok ou (whole_ok (1 : Nat)) (by simp; omega) (by omega)
  obtain ⟨s2, h2', o2⟩ := mul_ok ou (whole_ok (2 : Nat)) (by simp; omega) (by omega)
  obtain ⟨s3, h3', o3⟩ := mul_ok ou (whole_ok (3 : Nat)) (by simp; omega) (by omega)
  obtain ⟨e0, a0, p0⟩ := add_ok o0 two (by simp; omega) (by omega)
  obtain ⟨e1, a1, p1⟩ := add_ok o1 two (by simp; omega) (by omega)
  obtain ⟨e2, a2, p2⟩ := add_ok o2 two (by simp; omega) (by omega)
  have hMv : (0 : ℚ) ≤ M.val := by
    rw [oM.1]
    positivity
  have huv : u.val = M.val / 2 := by rw [ou.1, oM.1]
  have ht := timepoints_eq hd hM hu h0 h1 h2' h3' (by rw [o1.1, ← oM.1]; push_cast; linarith) (by rw [o2.1, ← oM.1]; push_cast; linarith) a0 a1 a2
  have hg0 : ((Nat.gcd s r : Nat) : ℚ) ≠ 0 := by exact_mod_cast hg.ne'
  have hu2 : u.val * r = ((s - 2 * r : Nat) : ℚ) / 2 := by
    rw [huv, oM.1, Nat.cast_sub h2, Nat.cast_sub h]
    have x1 : (s : ℚ) = a * (Nat.gcd s r : Nat) := by exact_mod_cast hsa.symm
    have x2 : (r : ℚ) = b * (Nat.gcd s r : Nat) := by exact_mod_cast hrb.symm
    push_cast
    rw [x2]
    generalize ((Nat.gcd s r : Nat) : ℚ) = G at *
    rw [x1]
    field_simp
  have v1 : s1.val = u.val := by rw [o1.1, ← ou.1]; simp
  have v2 : s2.val = u.val * 2 := by rw [o2.1, ← ou.1]; simp
  have v0 : s0.val = 0 := by rw [o0.1]; simp
  have hN : (2 * (a : Int) + 4 * b) * r < 2147483648 := by
    have : (2 * a + 4 * b) * r = 2 * A + 4 * B := by rw [hA, hBB]; ring
    have h' : (2 * a + 4 * b) * r < 2147483648 := by omega
    have h'' : (2 * (a : Int) + 4 * b) * r < 2147483648 := by exact_mod_cast h'
    exact h''
  have hD : (2 * (b : Int)) * 1 < 2147483648 := by omega
  have f0 : Ok s0 s0.val (2 * a + 4 * b) (2 * b) := by rw [o0.1]; exact o0.mono (by simp; omega) (by omega)
  have f1 : Ok s1 s1.val (2 * a + 4 * b) (2 * b) := by rw [o1.1]; exact o1.mono (by simp; omega) (by omega)
  have f2 : Ok s2 s2.val (2 * a + 4 * b) (2 * b) := by rw [o2.1]; exact o2.mono (by simp; omega) (by omega)
  have q0 : Ok e0 e0.val (2 * a + 4 * b) (2 * b) := by rw [p0.1]; exact p0.mono (by simp; omega) (by omega)
  have q1 : Ok e1 e1.val (2 * a + 4 * b) (2 * b) := by rw [p1.1]; exact p1.mono (by simp; omega) (by omega)
  have q2 : Ok e2 e2.val (2 * a + 4 * b) (2 * b) := by rw [p2.1]; exact p2.mono (by simp; omega) (by omega)
  have w0 : e0.val = s0.val + 2 := by rw [p0.1, o0.1]
  have w1 : e1.val = s1.val + 2 := by rw [p1.1, o1.1]
  have w2 : e2.val = s2.val + 2 := by rw [p2.1, o2.1]
  obtain ⟨g0, m0, t0⟩ := position_eq (p := 0) (q := 1) f0 hN hD (by decide) (by rw [v0]; simp)
  obtain ⟨g1, m1, t1⟩ := position_eq (p := 2 * r) (q := 1) q0 hN hD (by decide) (by rw [w0, v0]; push_cast; ring)
  obtain ⟨g2, m2, t2⟩ := position_eq (p := s - 2 * r) (q := 2) f1 hN hD (by decide) (by rw [v1, hu2]; push_cast; ring)
  obtain ⟨g3, m3, t3⟩ := position_eq (p := s - 2 * r + 2 * r * 2) (q := 2) q1 hN hD (by decide) (by
    rw [w1, v1, add_mul, hu2]
    push_cast
    ring)
  obtain ⟨g4, m4, t4⟩ := position_eq (p := s - 2 * r) (q := 1) f2 hN hD (by decide) (by
    rw [v2, mul_right_comm, hu2]
    push_cast
    ring)
  obtain ⟨g5, m5, t5⟩ := position_eq (p := s - 2 * r + 2 * r) (q := 1) q2 hN hD (by decide) (by
    rw [w2, v2, add_mul, mul_right_comm, hu2]
    push_cast
    ring)
  rw [clips_eq hdur ht m0 m1 m2 m3 m4 m5, t0, t1, t2, t3, t4, t5]
  rw [Nat.add_mul_div_right _ _ (by decide : 0 < 2), Nat.div_one, Nat.div_one, Nat.div_one, Nat.div_one, Nat.sub_add_cancel h]
  rfl

theorem clipReads_in {start stop C : Nat} {i : Int} (h : i ∈ clipReads start stop C) : (start : Int) ≤ i ∧ i < stop := by
  unfold clipReads at h
  rw [List.mem_filter, List.mem_map] at h
  obtain ⟨⟨k, hk, rfl⟩, _⟩ := h
  rw [List.mem_range] at hk
  omega

/-- The samples the clips read are those of the recording. -/
theorem C176_clip_reads {s r C : Nat} (hr : 0 < r) (h : 2 * r ≤ s) (hb : (3 * (s / Nat.gcd s r) + 8 * (r / Nat.gcd s r)) * r < 2147483648) :
    ∃ l, clips s r = some l ∧ l.length = 3 ∧ ∀ p ∈ l, p.2 - p.1 = 2 * r ∧ ∀ i ∈ clipReads (p.1 * C) (p.2 * C) C, 0 ≤ i ∧ i < (s * C : Nat) := by
  refine ⟨_, C176_clips hr h hb, rfl, ?_⟩
  have key : ∀ x y : Nat, y = x + 2 * r → y ≤ s →
      (y : Int) - x = 2 * r ∧ ∀ i ∈ clipReads ((x : Int) * C) ((y : Int) * C) C, 0 ≤ i ∧ i < (s * C : Nat) := by
    intro x y hy hys
    refine ⟨by omega, fun i hi => ?_⟩
    have := clipReads_in (start := x * C) (stop := y * C) (C := C) (i := i) (by exact_mod_cast hi)
    have h2 : y * C ≤ s * C := Nat.mul_le_mul_right _ hys
    omega
  intro p hp
  simp only [List.mem_cons, List.not_mem_nil, or_false] at hp
  rcases hp with rfl | rfl | rfl
  · exact key 0 (2 * r) (by omega) h
  · exact key _ _ rfl (by omega)
  · exact key _ s (by omega) (le_refl _)

/-- A recording of less than two seconds: three times the clip of two seconds from the start, which reads beyond its end. -/
theorem C176_short_violated {s r : Nat} (hs : 0 < s) (hr : 0 < r) (h : s < 2 * r) (hr' : 8 * r * r < 2147483648) :
    clips s r = (some [(0, (2 * r : Nat)), (0, (2 * r : Nat)), (0, (2 * r : Nat))] : Option (List (Int × Int))) ∧
    (s : Int) ∈ clipReads 0 (2 * r : Nat) 1 := by
  constructor
  · have hg : 0 < Nat.gcd s r := Nat.gcd_pos_of_pos_right _ hr
    have hrr : r ≤ r * r := Nat.le_mul_of_pos_left _ hr
    obtain ⟨R, hR⟩ : ∃ R, R = r * r := ⟨_, rfl⟩
    rw [Nat.mul_assoc, ← hR] at hr'
    rw [← hR] at hrr
    have hr2 : 8 * R < 2147483648 := hr'
    have hs31 : (s : Int) < 2147483648 := by
      have : (s : Int) < 2147483648 := by omega
      exact this
    have hr31 : (r : Int) < 2147483648 := by
      have : (r : Int) < 2147483648 := by omega
      exact this
    have hdur := duration_eq hs hr hs31 hr31
    obtain ⟨a, ha⟩ : ∃ a, a = s / Nat.gcd s r := ⟨_, rfl⟩
    obtain ⟨b, hbd⟩ : ∃ b, b = r / Nat.gcd s r := ⟨_, rfl⟩
    have hsa : a * Nat.gcd s r = s := by rw [ha]; exact Nat.div_mul_cancel (Nat.gcd_dvd_left _ _)
    have hrb : b * Nat.gcd s r = r := by rw [hbd]; exact Nat.div_mul_cancel (Nat.gcd_dvd_right _ _)
    have hb0 : 0 < b := by rw [hbd]; exact Nat.div_pos (Nat.le_of_dvd hr (Nat.gcd_dvd_right _ _)) hg
    have h2 : a < 2 * b := by
      apply Nat.lt_of_mul_lt_mul_right (a := Nat.gcd s r)
      rw [hsa, Nat.mul_assoc, hrb]
      exact h
    have hbr : b ≤ r := by rw [hbd]; exact Nat.div_le_self _ _
    rw [← ha, ← hbd] at hdur
    have od : Ok ⟨a, b⟩ ((a : ℚ) / b) a b := ⟨by simp [Fr.val], Int.natCast_pos.mpr hb0, le_refl _, by simp⟩
    have two : Ok ⟨2, 1⟩ 2 2 1 := by simpa using whole_ok 2
    obtain ⟨d, hd, od'⟩ := sub_ok od two (by omega) (by omega)
    have hbq : (0 : ℚ) < b := by exact_mod_cast hb0
    have hneg : d.val < 0 := by
      rw [od'.1, sub_neg, div_lt_iff₀ hbq]
      exact_mod_cast h2
    have hM : Fr.max ⟨0, 1⟩ d = ⟨0, 1⟩ := by
      unfold Fr.max
      rw [if_pos]
      have hz : (⟨0, 1⟩ : Fr).val = 0 := by simp [Fr.val]
      rw [hz]
      exact hneg.le
    have ht := timepoints_eq (dur := ⟨a, b⟩) (u := ⟨0, 1⟩) (s0 := ⟨0, 1⟩) (s1 := ⟨0, 1⟩) (s2 := ⟨0, 1⟩) (s3 := ⟨0, 1⟩)
      (e0 := ⟨2, 1⟩) (e1 := ⟨2, 1⟩) (e2 := ⟨2, 1⟩) hd hM (by decide +kernel) (by decide +kernel) (by decide +kernel) (by decide +kernel)
      (by decide +kernel) (le_refl _) (le_refl _) (by decide +kernel) (by decide +kernel) (by decide +kernel)
    have z : Ok ⟨0, 1⟩ 0 0 1 := by simpa using whole_ok 0
    obtain ⟨g0, m0, t0⟩ := position_eq (r := r) (p := 0) (q := 1) z (by simp) (by decide) (by decide) (by simp)
    obtain ⟨g1, m1, t1⟩ := position_eq (r := r) (p := 2 * r) (q := 1) two (by omega) (by decide) (by decide) (by push_cast; ring)
    rw [clips_eq hdur ht m0 m1 m0 m1 m0 m1, t0, t1]
    rw [Nat.div_one, Nat.div_one]
    rfl
  · unfold clipReads
    rw [List.mem_filter, List.mem_map]
    refine ⟨⟨s, List.mem_range.mpr ?_, by simp⟩, ?_⟩
    · omega
    · simp

/-- A recording of ten seconds and one sample at 16 kHz: the arithmetic of the fractions overflows. -/
theorem C176_overflow_violated : clips 160001 16000 = none := by decide +kernel

/-! ## Instances -/

/-- Ten seconds at 16 kHz. -/
example : clips 160000 16000 = some [(0, 32000), (64000, 96000), (128000, 160000)] := by
  have := C176_clips (s := 160000) (r := 16000) (by decide) (by decide) (by decide)
  exact this

example : 2 * 16000 ≤ 160000 ∧ (3 * (160000 / Nat.gcd 160000 16000) + 8 * (16000 / Nat.gcd 160000 16000)) * 16000 < 2147483648 := by decide

/-- Half a second at 16 kHz. -/
example : clips 8000 16000 = some [(0, 32000), (0, 32000), (0, 32000)] :=
  (C176_short_violated (s := 8000) (r := 16000) (by decide) (by decide) (by decide) (by decide)).1

end Verif.Codec
