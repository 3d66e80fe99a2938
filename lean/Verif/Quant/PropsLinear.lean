import Verif.Quant.Linear
import Verif.Quant.PropsDot6

/-! C132: a linear layer with K-quantised weights. -/

namespace Verif.Quant

open Verif.Kern (run Upd Interleave run_once)

/-- The rows of the input and the output lie one behind the other. -/
def MM.Dense (g : MM) : Prop := g.s3 = g.M * g.K ∧ g.s2 = g.K ∧ g.w2 = g.K ∧ g.d3 = g.M * g.N

theorem jobs_get {α : Type} (T : Nat) (job : Nat → List (Upd α)) {i : Nat} (hi : i < T) :
    ∃ h : i < ((List.range T).map job).length, ((List.range T).map job)[i] = job i := ⟨by simpa using hi, by simp⟩

/-- Any schedule of jobs of which only one writes `a`. -/
theorem job_owner {α : Type} {T : Nat} {job : Nat → List (Upd α)} {s : List (Upd α)} (h : Interleave ((List.range T).map job) s)
    {a i : Nat} (hi : i < T) (ho : ∀ k < T, k ≠ i → ∀ u ∈ job k, u.addr ≠ a) (m : Nat → α) : run s m a = run (job i) m a := by
  obtain ⟨hl, he⟩ := jobs_get T job hi
  have := h.owner a i hl (fun k hk hne u hu => by
    have hk' : k < T := by simpa using hk
    exact ho k hk' hne u (by simpa using hu)) m
  rw [this, he]

/-- A sum, plus the bias if there is one. -/
noncomputable def withBias (bias : Option (Nat → ℝ)) (n : Nat) (sumf : ℝ) : ℝ := match bias with | some v => sumf + v n | none => sumf

/-- The bias of output `n`. -/
noncomputable def biasAt (bias : Option (Nat → ℝ)) (n : Nat) : ℝ := match bias with | some v => v n | none => 0

theorem K_split {K : Nat} (hK : K % 256 = 0) : ∃ c, K = 256 * c ∧ K / 256 = c := ⟨K / 256, by omega, rfl⟩

/-- After the first loop, the blocks of row `(b, m)` are its quantised blocks. -/
theorem quant_row {g : MM} (hd : g.Dense) (hK : g.K % 256 = 0) {rnd : ℝ → Int} {junk : Nat → Nat → Int} {x : Nat → ℝ} {s : List (Upd Q8K)}
    (h : Interleave (quantJobs g rnd junk x) s) (tmp : Nat → Q8K) {b m i : Nat} (hb : b < g.B) (hm : m < g.M) (hi : i < g.K / 256) :
    run s tmp ((b * g.s3 + m * g.s2) / 256 + i) =
      q8KBlock rnd (junk ((b * g.s3 + m * g.s2) / 256 + i)) fun j => x ((b * g.M + m) * g.K + (i * 256 + j)) := by
  obtain ⟨h3, h2, -, -⟩ := hd
  obtain ⟨c, hc, hcd⟩ := K_split hK
  have hM : 0 < g.M := by omega
  have src : ∀ t, (if t / g.M > 0 then g.s3 * (t / g.M) else 0) + t % g.M * g.s2 = t * g.K := by
    intro t
    have e : t / g.M * g.M + t % g.M = t := Nat.div_add_mod' t g.M
    have : (if t / g.M > 0 then g.s3 * (t / g.M) else 0) = g.s3 * (t / g.M) := by
      split
      · rfl
      · rename_i h0
        rw [Nat.eq_zero_of_not_pos h0]; rfl
    rw [this, h3, h2]
    conv_rhs => rw [← e]
    ring
  have dst : ∀ t, ((if t / g.M > 0 then g.M * g.K * (t / g.M) else 0) + t % g.M * g.K) / 256 = t * c := by
    intro t
    have := src t
    rw [h3, h2] at this
    rw [this, hc, show t * (256 * c) = 256 * (t * c) by ring, Nat.mul_div_cancel_left _ (by norm_num)]
  have job : ∀ t, quantJob g rnd junk x t = (List.range c).map fun i =>
      Upd.put (t * c + i) (q8KBlock rnd (junk (t * c + i)) fun j => x (t * g.K + (i * 256 + j))) := by
    intro t
    unfold quantJob
    simp only [src t, dst t, hcd]
  have hadr : (b * g.s3 + m * g.s2) / 256 = (b * g.M + m) * c := by
    rw [h3, h2, hc, show b * (g.M * (256 * c)) + m * (256 * c) = 256 * ((b * g.M + m) * c) by ring, Nat.mul_div_cancel_left _ (by norm_num)]
  rw [hadr]
  have hT : b * g.M + m < g.B * g.M := by
    calc b * g.M + m < b * g.M + g.M := by omega
      _ = (b + 1) * g.M := by ring
      _ ≤ g.B * g.M := Nat.mul_le_mul_right _ hb
  rw [hcd] at hi
  rw [job_owner h (i := b * g.M + m) hT ?_ tmp, job]
  · have hn : (((List.range c).map fun i => Upd.put ((b * g.M + m) * c + i) (q8KBlock rnd (junk ((b * g.M + m) * c + i)) fun j => x ((b * g.M + m) * g.K + (i * 256 + j)))).map Upd.addr).Nodup := by
      rw [List.map_map]
      refine List.Nodup.map (fun p q hpq => ?_) List.nodup_range
      simp only [Function.comp, Upd.put] at hpq
      omega
    have := run_once hn (u := Upd.put ((b * g.M + m) * c + i) (q8KBlock rnd (junk ((b * g.M + m) * c + i)) fun j => x ((b * g.M + m) * g.K + (i * 256 + j))))
      (List.mem_map.mpr ⟨i, List.mem_range.mpr hi, rfl⟩) tmp
    exact this
  · intro k _ hne u hu
    rw [job] at hu
    obtain ⟨i', hi', rfl⟩ := List.mem_map.mp hu
    have hi' := List.mem_range.mp hi'
    simp only [Upd.put]
    intro he
    have h1 : (k * c + i') / c = k := by rw [Nat.mul_comm, Nat.mul_add_div (by omega), Nat.div_eq_of_lt hi', Nat.add_zero]
    have h2 : ((b * g.M + m) * c + i) / c = b * g.M + m := by rw [Nat.mul_comm, Nat.mul_add_div (by omega), Nat.div_eq_of_lt hi, Nat.add_zero]
    rw [he] at h1
    exact hne (h1.symm.trans h2)

/-- What the second loop leaves in output `(b, m, n)`. -/
theorem dot_cell {ω : Type} {g : MM} (h4 : g.d3 = g.M * g.N) {dot : (Nat → ω) → (Nat → Q8K) → ℝ} {w : Nat → ω} {q : Nat → Q8K} {bias : Option (Nat → ℝ)}
    {s : List (Upd ℝ)} (h : Interleave (dotJobs g dot w q bias) s) (out : Nat → ℝ) {b m n : Nat} (hb : b < g.B) (hm : m < g.M) (hn : n < g.N) :
    run s out ((b * g.M + m) * g.N + n) =
      dot (fun i => w (n * g.w2 / 256 + i)) (fun i => q ((b * g.s3 + m * g.s2) / 256 + i)) + biasAt bias n := by
  obtain ⟨L, hL⟩ : ∃ L, L = g.N / 16 + 1 := ⟨_, rfl⟩
  have hLp : 0 < L := by omega
  have hM : 0 < g.M := by omega
  have hb0 : (if g.B > 1 then b * g.s3 else 0) = b * g.s3 := by
    split
    · rfl
    · have : b = 0 := by omega
      rw [this]; simp
  -- the decoding of an index
  have dec : ∀ b m k, m < g.M → k < L → ((b * g.M + m) * L + k) / (g.M * L) = b ∧ ((b * g.M + m) * L + k) % (g.M * L) = m * L + k := by
    intro b m k hm hk
    have e : (b * g.M + m) * L + k = (g.M * L) * b + (m * L + k) := by ring
    have hlt : m * L + k < g.M * L := by
      calc m * L + k < m * L + L := by omega
        _ = (m + 1) * L := by ring
        _ ≤ g.M * L := Nat.mul_le_mul_right _ hm
    rw [e]
    exact ⟨by rw [Nat.mul_add_div (by positivity), Nat.div_eq_of_lt hlt, Nat.add_zero], by rw [Nat.mul_add_mod, Nat.mod_eq_of_lt hlt]⟩
  have dec2 : ∀ m k, k < L → (m * L + k) / L = m ∧ (m * L + k) % L = k := by
    intro m k hk
    rw [Nat.mul_comm m L]
    exact ⟨by rw [Nat.mul_add_div hLp, Nat.div_eq_of_lt hk, Nat.add_zero], by rw [Nat.mul_add_mod, Nat.mod_eq_of_lt hk]⟩
  obtain ⟨val, hval⟩ : ∃ val : Nat → Nat → Nat → ℝ, val = fun b m n =>
      withBias bias n (dot (fun i => w (n * g.w2 / 256 + i)) (fun i => q (((if g.B > 1 then b * g.s3 else 0) + m * g.s2) / 256 + i))) := ⟨_, rfl⟩
  have job : ∀ b m k, m < g.M → k < L → dotJob g dot w q bias ((b * g.M + m) * L + k) =
      (((List.range 16).map (k * 16 + ·)).filter (· < g.N)).map fun n => Upd.put (b * (g.M * g.N) + (m * g.N + n)) (val b m n) := by
    intro b m k hm hk
    unfold dotJob
    simp only [← hL]
    rw [(dec b m k hm hk).1, (dec b m k hm hk).2, (dec2 m k hk).1, (dec2 m k hk).2, h4, hval]
    rfl
  have hk : n / 16 < L := by omega
  have hT : (b * g.M + m) * L + n / 16 < g.B * g.M * L := by
    have : b * g.M + m + 1 ≤ g.B * g.M := by
      calc b * g.M + m + 1 ≤ b * g.M + g.M := by omega
        _ = (b + 1) * g.M := by ring
        _ ≤ g.B * g.M := Nat.mul_le_mul_right _ hb
    calc (b * g.M + m) * L + n / 16 < (b * g.M + m) * L + L := by omega
      _ = (b * g.M + m + 1) * L := by ring
      _ ≤ g.B * g.M * L := Nat.mul_le_mul_right _ this
  have hdj : dotJobs g dot w q bias = (List.range (g.B * g.M * L)).map (dotJob g dot w q bias) := by unfold dotJobs; rw [hL]
  rw [hdj] at h
  have adr : ∀ b m n, b * (g.M * g.N) + (m * g.N + n) = (b * g.M + m) * g.N + n := fun b m n => by ring
  rw [job_owner h (i := (b * g.M + m) * L + n / 16) hT ?_ out, job b m _ hm hk]
  · have hnd : (((((List.range 16).map (n / 16 * 16 + ·)).filter (· < g.N)).map fun n => Upd.put (b * (g.M * g.N) + (m * g.N + n)) (val b m n)).map Upd.addr).Nodup := by
      rw [List.map_map]
      refine List.Nodup.map (fun p q hpq => ?_) ((List.Nodup.map (fun p q hpq => ?_) List.nodup_range).filter _)
      · simp only [Function.comp, Upd.put] at hpq; omega
      · exact Nat.add_left_cancel hpq
    have := run_once hnd (u := Upd.put (b * (g.M * g.N) + (m * g.N + n)) (val b m n)) (List.mem_map.mpr ⟨n, List.mem_filter.mpr
      ⟨List.mem_map.mpr ⟨n % 16, List.mem_range.mpr (Nat.mod_lt _ (by norm_num)), by omega⟩, by simpa using hn⟩, rfl⟩) out
    rw [← adr]
    refine this.trans ?_
    show val b m n = _
    rw [hval]
    simp only [hb0, withBias, biasAt]
    cases bias <;> simp
  · intro t ht hne u hu he
    -- decode `t`
    have ht2 : t / L < g.B * g.M := Nat.div_lt_of_lt_mul (by rw [Nat.mul_comm]; exact ht)
    have e1 : t = (t / L / g.M * g.M + t / L % g.M) * L + t % L := by
      rw [Nat.div_add_mod' (t / L) g.M, Nat.div_add_mod' t L]
    have hml : t / L % g.M < g.M := Nat.mod_lt _ hM
    have hkl : t % L < L := Nat.mod_lt _ hLp
    rw [e1, job _ _ _ hml hkl] at hu
    obtain ⟨n', hn', rfl⟩ := List.mem_map.mp hu
    obtain ⟨hn1, hn2⟩ := List.mem_filter.mp hn'
    obtain ⟨r, hr, rfl⟩ := List.mem_map.mp hn1
    have hr := List.mem_range.mp hr
    have hn2 : t % L * 16 + r < g.N := by simpa using hn2
    simp only [Upd.put] at he
    rw [adr] at he
    have d1 : ((t / L / g.M * g.M + t / L % g.M) * g.N + (t % L * 16 + r)) / g.N = t / L / g.M * g.M + t / L % g.M := by
      rw [Nat.mul_comm, Nat.mul_add_div (by omega), Nat.div_eq_of_lt hn2, Nat.add_zero]
    have d2 : ((b * g.M + m) * g.N + n) / g.N = b * g.M + m := by
      rw [Nat.mul_comm, Nat.mul_add_div (by omega), Nat.div_eq_of_lt hn, Nat.add_zero]
    have hrow : t / L / g.M * g.M + t / L % g.M = b * g.M + m := by rw [← d1, ← d2, he]
    rw [hrow] at he e1
    have hnn : t % L * 16 + r = n := by omega
    have hkk : t % L = n / 16 := by omega
    rw [hkk] at e1
    exact hne e1

/-- Cells outside the output are not written. -/
theorem dot_other {ω : Type} {g : MM} (h4 : g.d3 = g.M * g.N) {dot : (Nat → ω) → (Nat → Q8K) → ℝ} {w : Nat → ω} {q : Nat → Q8K}
    {bias : Option (Nat → ℝ)} {s : List (Upd ℝ)} (h : Interleave (dotJobs g dot w q bias) s) (out : Nat → ℝ) {a : Nat} (ha : g.B * g.M * g.N ≤ a) :
    run s out a = out a := by
  refine h.other a (fun j hj u hu => ?_) out
  obtain ⟨t, ht, rfl⟩ := List.mem_map.mp hj
  have ht := List.mem_range.mp ht
  unfold dotJob at hu
  obtain ⟨n, hn, rfl⟩ := List.mem_map.mp hu
  have hn : n < g.N := by simpa using (List.mem_filter.mp hn).2
  obtain ⟨L, hL⟩ : ∃ L, L = g.N / 16 + 1 := ⟨_, rfl⟩
  rw [← hL] at ht ⊢
  have hLp : 0 < L := by omega
  simp only [Upd.put, h4]
  have hM : 0 < g.M := by
    rcases Nat.eq_zero_or_pos g.M with h | h
    · rw [h] at ht; simp at ht
    · exact h
  have hb : t / (g.M * L) < g.B := Nat.div_lt_of_lt_mul (by rw [Nat.mul_assoc] at ht; rw [Nat.mul_comm _ g.B]; exact ht)
  have hm : t % (g.M * L) / L < g.M := Nat.div_lt_of_lt_mul (by rw [Nat.mul_comm L]; exact Nat.mod_lt _ (by positivity))
  generalize t / (g.M * L) = b at *
  generalize t % (g.M * L) / L = m at *
  have e : b * (g.M * g.N) + (m * g.N + n) = (b * g.M + m) * g.N + n := by ring
  rw [e]
  have h1 : b * g.M + m + 1 ≤ g.B * g.M := by
    calc b * g.M + m + 1 ≤ b * g.M + g.M := by omega
      _ = (b + 1) * g.M := by ring
      _ ≤ g.B * g.M := Nat.mul_le_mul_right _ hb
  have h2 : (b * g.M + m) * g.N + n < g.B * g.M * g.N := by
    calc (b * g.M + m) * g.N + n < (b * g.M + m) * g.N + g.N := by omega
      _ = (b * g.M + m + 1) * g.N := by ring
      _ ≤ g.B * g.M * g.N := Nat.mul_le_mul_right _ h1
  omega

/-- The layer over any weight format whose dot product with a quantised row is accurate. -/
theorem linear_of {ω : Type} {g : MM} (hd : g.Dense) (hK : g.K % 256 = 0) {rnd : ℝ → Int} {junk : Nat → Nat → Int}
    {dot : (Nat → ω) → (Nat → Q8K) → ℝ} {val : ω → Nat → ℝ} {Ok : ω → Prop}
    (hdot : ∀ (w : Nat → ω) (x A : Nat → ℝ) (junk : Nat → Nat → Int) (y : Nat → Q8K), (∀ i < g.K / 256, y i = rowQ8K rnd junk x i) →
      (∀ i < g.K / 256, Ok (w i)) → (∀ i < g.K / 256, ∀ j < 256, |x (i * 256 + j)| ≤ A i) →
      |dot w y - ∑ p ∈ Finset.range g.K, rowVal 256 val w p * x p| ≤
        ∑ i ∈ Finset.range (g.K / 256), A i / 128 * ∑ j ∈ Finset.range 256, |rowVal 256 val w (256 * i + j)|)
    {w : Nat → ω} (hw : ∀ i < g.N * (g.K / 256), Ok (w i)) {x : Nat → ℝ} {bias : Option (Nat → ℝ)} {tmp : Nat → Q8K} {out out' : Nat → ℝ}
    (h : MatMulRun g rnd junk dot w x bias tmp out out') {b m n : Nat} (hb : b < g.B) (hm : m < g.M) (hn : n < g.N)
    (A : Nat → ℝ) (hA : ∀ i < g.K / 256, ∀ j < 256, |x ((b * g.M + m) * g.K + (i * 256 + j))| ≤ A i) :
    |out' ((b * g.M + m) * g.N + n) -
        (∑ k ∈ Finset.range g.K, rowVal 256 val w (n * g.K + k) * x ((b * g.M + m) * g.K + k) + biasAt bias n)| ≤
      ∑ i ∈ Finset.range (g.K / 256), A i / 128 * ∑ j ∈ Finset.range 256, |rowVal 256 val w (n * g.K + (256 * i + j))| := by
  obtain ⟨s1, s2, h1, h2, rfl⟩ := h
  rw [dot_cell hd.2.2.2 h2 out hb hm hn]
  obtain ⟨c, hc, hcd⟩ := K_split hK
  have hw2 : n * g.w2 / 256 = n * c := by
    rw [hd.2.2.1, hc, show n * (256 * c) = 256 * (n * c) by ring, Nat.mul_div_cancel_left _ (by norm_num)]
  have hrow : ∀ p, rowVal 256 val w (n * g.K + p) = rowVal 256 val (fun i => w (n * g.w2 / 256 + i)) p := by
    intro p
    unfold rowVal
    rw [hw2, hc, show n * (256 * c) + p = 256 * (n * c) + p by ring, Nat.mul_add_div (by norm_num), Nat.mul_add_mod]
  simp only [hrow]
  have := hdot (fun i => w (n * g.w2 / 256 + i)) (fun p => x ((b * g.M + m) * g.K + p)) A (fun i => junk ((b * g.s3 + m * g.s2) / 256 + i))
    (fun i => run s1 tmp ((b * g.s3 + m * g.s2) / 256 + i)) (fun i hi => quant_row hd hK h1 tmp hb hm hi)
    (fun i hi => hw _ (by
      rw [hw2, hcd]
      rw [hcd] at hi
      calc n * c + i < n * c + c := by omega
        _ = (n + 1) * c := by ring
        _ ≤ g.N * c := Nat.mul_le_mul_right _ hn)) hA
  refine le_trans (le_of_eq ?_) this
  congr 1
  ring

/-- C132 for `Q4_K` weights: however the iterations of the two loops are scheduled, with any thread count, every output is the row
of weights times the row of activations plus the bias, up to `amax / 128` per activation; nothing beyond the output is
written.  All builds but plain NEON; contiguous input; `in_channels` a multiple of 256. -/
theorem C132_linear_q4_K_partial {tg : SimdK} (htg : tg ≠ .neonPlain) (P : Plat) {rnd : ℝ → Int} (hr : Rounds rnd) {g : MM} (hd : g.Dense)
    (hK : g.K % 256 = 0) {junk : Nat → Nat → Int} {w : Nat → Q4K} (hw : ∀ i < g.N * (g.K / 256), (w i).Bytes) {x : Nat → ℝ}
    {bias : Option (Nat → ℝ)} {tmp : Nat → Q8K} {out out' : Nat → ℝ} (h : MatMulRun g rnd junk (vecDot4 tg P g.K) w x bias tmp out out') :
    (∀ b < g.B, ∀ m < g.M, ∀ n < g.N, ∀ A : Nat → ℝ, (∀ i < g.K / 256, ∀ j < 256, |x ((b * g.M + m) * g.K + (i * 256 + j))| ≤ A i) →
      |out' ((b * g.M + m) * g.N + n) -
          (∑ k ∈ Finset.range g.K, rowVal 256 (Q4K.val P) w (n * g.K + k) * x ((b * g.M + m) * g.K + k) + biasAt bias n)| ≤
        ∑ i ∈ Finset.range (g.K / 256), A i / 128 * ∑ j ∈ Finset.range 256, |rowVal 256 (Q4K.val P) w (n * g.K + (256 * i + j))|) ∧
    ∀ a, g.B * g.M * g.N ≤ a → out' a = out a := by
  refine ⟨fun b hb m hm n hn A hA => ?_, fun a ha => ?_⟩
  · refine linear_of (Ok := Q4K.Bytes) hd hK (fun w x A junk y hy hw hA => ?_) hw h hb hm hn A hA
    · obtain ⟨v, hv, he⟩ := C131_matvec_q4_K htg P hr junk g.K 0 hK hw x A hy hA
      unfold vecDot4
      rw [hv]
      simpa [run, Upd.put] using he
  · obtain ⟨s1, s2, -, h2, rfl⟩ := h
    exact dot_other hd.2.2.2 h2 out ha

/-- C132 for `Q6_K` weights: however the iterations of the two loops are scheduled, with any thread count, every output is the row
of weights times the row of activations plus the bias, up to `amax / 128` per activation; nothing beyond the output is
written.  All builds but plain NEON; contiguous input; `in_channels` a multiple of 256. -/
theorem C132_linear_q6_K_partial {tg : SimdK} (htg : tg ≠ .neonPlain) (P : Plat) {rnd : ℝ → Int} (hr : Rounds rnd) {g : MM} (hd : g.Dense)
    (hK : g.K % 256 = 0) {junk : Nat → Nat → Int} {w : Nat → Q6K} (hw : ∀ i < g.N * (g.K / 256), (w i).Bytes) {x : Nat → ℝ}
    {bias : Option (Nat → ℝ)} {tmp : Nat → Q8K} {out out' : Nat → ℝ} (h : MatMulRun g rnd junk (vecDot6 tg P g.K) w x bias tmp out out') :
    (∀ b < g.B, ∀ m < g.M, ∀ n < g.N, ∀ A : Nat → ℝ, (∀ i < g.K / 256, ∀ j < 256, |x ((b * g.M + m) * g.K + (i * 256 + j))| ≤ A i) →
      |out' ((b * g.M + m) * g.N + n) -
          (∑ k ∈ Finset.range g.K, rowVal 256 (Q6K.val P) w (n * g.K + k) * x ((b * g.M + m) * g.K + k) + biasAt bias n)| ≤
        ∑ i ∈ Finset.range (g.K / 256), A i / 128 * ∑ j ∈ Finset.range 256, |rowVal 256 (Q6K.val P) w (n * g.K + (256 * i + j))|) ∧
    ∀ a, g.B * g.M * g.N ≤ a → out' a = out a := by
  refine ⟨fun b hb m hm n hn A hA => ?_, fun a ha => ?_⟩
  · refine linear_of (Ok := Q6K.Bytes) hd hK (fun w x A junk y hy hw hA => ?_) hw h hb hm hn A hA
    · obtain ⟨v, hv, he⟩ := C131_matvec_q6_K htg P hr junk g.K 0 hK hw x A hy hA
      unfold vecDot6
      rw [hv]
      simpa [run, Upd.put] using he
  · obtain ⟨s1, s2, -, h2, rfl⟩ := h
    exact dot_other hd.2.2.2 h2 out ha

/-! ### Violation: an input that is a slice -/

/-- Violation: an input whose batches are not one behind the other, such as the last token of two sequences of two.  The
products are taken at the input's strides although the quantised copy is contiguous: batch 1 is computed from what lies behind the
quantised rows, whatever the input was. -/
theorem C132_sliced_input_violated {ω : Type} {K N : Nat} (hK : K % 256 = 0) {rnd : ℝ → Int} {junk : Nat → Nat → Int}
    {dot : (Nat → ω) → (Nat → Q8K) → ℝ} {w : Nat → ω} {x : Nat → ℝ} {bias : Option (Nat → ℝ)} {tmp : Nat → Q8K} {out out' : Nat → ℝ}
    (h : MatMulRun ⟨2, 1, K, N, 2 * K, K, K, N⟩ rnd junk dot w x bias tmp out out') {n : Nat} (hn : n < N) :
    out' (N + n) = dot (fun i => w (n * K / 256 + i)) (fun i => tmp (2 * (K / 256) + i)) + biasAt bias n := by
  obtain ⟨s1, s2, h1, h2, rfl⟩ := h
  have := dot_cell (g := ⟨2, 1, K, N, 2 * K, K, K, N⟩) (by simp) h2 out (b := 1) (m := 0) (n := n) (by norm_num) (by norm_num) hn
  simp only [Nat.mul_one, Nat.one_mul, Nat.add_zero, Nat.zero_mul] at this
  rw [this]
  have he : 2 * K / 256 = 2 * (K / 256) := by omega
  rw [he]
  congr 2
  funext i
  refine h1.other _ (fun j hj u hu => ?_) tmp
  obtain ⟨t, ht, rfl⟩ := List.mem_map.mp hj
  have ht : t < 2 := by simpa using ht
  unfold quantJob at hu
  obtain ⟨i', hi', rfl⟩ := List.mem_map.mp hu
  have hi' := List.mem_range.mp hi'
  simp only [Upd.put, Nat.div_one, Nat.mod_one, Nat.one_mul, Nat.zero_mul, Nat.add_zero]
  simp only at hi'
  have : t = 0 ∨ t = 1 := by omega
  rcases this with rfl | rfl
  · simp; omega
  · simp; omega

/-- Such a run exists, and two contents of the memory behind the quantised rows give two outputs. -/
example : ∃ tmp tmp' : Nat → Q8K, ∃ out out' : Nat → ℝ,
    MatMulRun ⟨2, 1, 256, 1, 512, 256, 256, 1⟩ (fun _ => 0) (fun _ _ => 0) (fun (w : Nat → ℝ) y => w 0 * (y 0).d) (fun _ => 1) (fun _ => 0) none tmp (fun _ => 0) out ∧
    MatMulRun ⟨2, 1, 256, 1, 512, 256, 256, 1⟩ (fun _ => 0) (fun _ _ => 0) (fun (w : Nat → ℝ) y => w 0 * (y 0).d) (fun _ => 1) (fun _ => 0) none tmp' (fun _ => 0) out' ∧
    out 1 ≠ out' 1 := by
  have r1 : MatMulRun ⟨2, 1, 256, 1, 512, 256, 256, 1⟩ (fun _ => 0) (fun _ _ => 0) (fun (w : Nat → ℝ) y => w 0 * (y 0).d) (fun _ => 1) (fun _ => 0) none
      (fun _ => ⟨0, fun _ => 0, fun _ => 0⟩) (fun _ => 0) _ := ⟨_, _, Interleave.seq _, Interleave.seq _, rfl⟩
  have r2 : MatMulRun ⟨2, 1, 256, 1, 512, 256, 256, 1⟩ (fun _ => 0) (fun _ _ => 0) (fun (w : Nat → ℝ) y => w 0 * (y 0).d) (fun _ => 1) (fun _ => 0) none
      (fun _ => ⟨1, fun _ => 0, fun _ => 0⟩) (fun _ => 0) _ := ⟨_, _, Interleave.seq _, Interleave.seq _, rfl⟩
  refine ⟨_, _, _, _, r1, r2, ?_⟩
  have e1 := C132_sliced_input_violated (by norm_num) r1 (n := 0) (by norm_num)
  have e2 := C132_sliced_input_violated (by norm_num) r2 (n := 0) (by norm_num)
  rw [show (1 : Nat) = 1 + 0 from rfl, e1, e2]
  simp [biasAt]

/-! ### The hypotheses can be met -/

/-- Two sequences of three tokens, 512 inputs, 40 outputs. -/
example (w : Nat → Q4K) (x out : Nat → ℝ) (tmp : Nat → Q8K) (P : Plat) : ∃ out', (MM.mk 2 3 512 40 1536 512 512 120).Dense ∧
    MatMulRun ⟨2, 3, 512, 40, 1536, 512, 512, 120⟩ (fun _ => 0) (fun _ _ => 0) (vecDot4 .avx2 P 512) w x (some fun n => (n : ℝ)) tmp out out' :=
  ⟨_, ⟨rfl, rfl, rfl, rfl⟩, _, _, Interleave.seq _, Interleave.seq _, rfl⟩

end Verif.Quant
