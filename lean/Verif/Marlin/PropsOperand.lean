import Verif.Marlin.PropsDequant

/-!
# C158: every thread gets the right weight, scale and zero point
-/

namespace Verif.Marlin

/-! ## Specification -/

/-- The shape of an instantiated kernel: `q` warps side by side of 64 columns each, `p` below each
other, two iterations of `p` blocks of 16 rows; groups and tiles fit into each other; the tile row
and column exist. -/
structure GemmCfg.Ok (c : GemmCfg) (K row col : Nat) : Prop where
  n64 : c.N % 64 = 0
  tnb4 : c.tnb % 4 = 0
  tnb0 : 0 < c.tnb
  tkb2 : c.tkb % 2 = 0
  thr : c.threads = 32 * (c.tnb / 4) * (c.tkb / 2)
  gb0 : 0 < c.gb
  gfit : c.gb % c.tkb = 0 ∨ c.tkb % c.gb = 0
  k16 : K % 16 = 0
  rows : 16 * c.tkb * (row + 1) ≤ K
  cols : 16 * c.tnb * (col + 1) ≤ c.N

/-- The row of the weight in register `r`, half `h` of a thread: warp rows of 16, in each the
operand layout of the tensor-core instruction. -/
def opRow (c : GemmCfg) (row tid i r h : Nat) : Nat :=
  16 * (c.tkb * row + c.tkb / 2 * i + tid / 32 / (c.tnb / 4)) + (tid % 32 % 4 * 2 + 8 * r + h)

/-- The column of the weight in fragment `f` of column group `j`. -/
def opCol (c : GemmCfg) (col tid j f : Nat) : Nat :=
  64 * (c.tnb / 4 * col + tid / 32 % (c.tnb / 4)) + 16 * j + 8 * f + tid % 32 / 4

/-- Register indices of one thread: two iterations, four column groups, two fragments of two
registers of two halves. -/
def Reg (i j f r h : Nat) : Prop := i < 2 ∧ j < 4 ∧ f < 2 ∧ r < 2 ∧ h < 2

/-! ## Addresses -/

variable {c : GemmCfg} {K row col : Nat}

theorem GemmCfg.Ok.dims (ok : c.Ok K row col) : ∃ p q M, c.tkb = 2 * p ∧ c.tnb = 4 * q ∧ c.N = 64 * M ∧
    c.threads = 32 * q * p ∧ 0 < q := by
  refine ⟨c.tkb / 2, c.tnb / 4, c.N / 64, ?_, ?_, ?_, ?_, ?_⟩
  · have := ok.tkb2; omega
  · have := ok.tnb4; omega
  · have := ok.n64; omega
  · exact ok.thr
  · have := ok.tnb4; have := ok.tnb0; omega

/-- tile coordinates of a thread -/
theorem tile_bounds (ok : c.Ok K row col) {tid i : Nat} (ht : tid < c.threads) (hi : i < 2) :
    c.tkb * row + c.tkb / 2 * i + tid / 32 / (c.tnb / 4) < K / 16 ∧
    c.tnb / 4 * col + tid / 32 % (c.tnb / 4) < c.N / 64 ∧
    c.tkb / 2 * i + tid / 32 / (c.tnb / 4) < c.tkb := by
  obtain ⟨p, q, M, hp, hq, hM, hthr, q0⟩ := ok.dims
  have hr := ok.rows
  have hc := ok.cols
  have hk := ok.k16
  rw [hp, hq, hM] at *
  rw [hthr] at ht
  simp only [Nat.mul_div_cancel_left _ (show 0 < 2 by omega), Nat.mul_div_cancel_left _ (show 0 < 4 by omega),
    Nat.mul_div_cancel_left _ (show 0 < 64 by omega)]
  have hw : tid / 32 / q < p := by
    rw [Nat.div_div_eq_div_mul]
    exact Nat.div_lt_of_lt_mul ht
  have hw2 : tid / 32 % q < q := Nat.mod_lt _ q0
  have hpi : p * i ≤ p := by
    have : i = 0 ∨ i = 1 := by omega
    rcases this with rfl | rfl <;> simp
  refine ⟨?_, ?_, ?_⟩
  · have : 16 * (2 * p) * (row + 1) = 16 * (2 * p * row + 2 * p) := by ring
    rw [this] at hr
    generalize 2 * p * row = a at *
    omega
  · have : 16 * (4 * q) * (col + 1) = 64 * (q * col + q) := by ring
    rw [this] at hc
    generalize q * col = a at *
    omega
  · omega

theorem div_mod_warp (tid q : Nat) : tid % (32 * q) = 32 * (tid / 32 % q) + tid % 32 := by
  have := Nat.mod_mul (x := tid) (a := 32) (b := q)
  omega

theorem bWord_4 (ok : c.Ok K row col) (tid i j f : Nat) (hj : j < 4) :
    bWord 4 c row col tid i j = fragWord 4 c.N (c.tkb * row + c.tkb / 2 * i + tid / 32 / (c.tnb / 4))
      (c.tnb / 4 * col + tid / 32 % (c.tnb / 4)) (tid % 32) j f := by
  obtain ⟨p, q, M, hp, hq, hM, hthr, q0⟩ := ok.dims
  simp only [bWord, fragWord, if_pos, hp, hq, hM, hthr]
  rw [show 16 * (64 * M) / (32 / 4 * 4) = 32 * M by omega,
    show 4 * q * 16 * 16 / (32 / 4) / 4 = 32 * q by omega, Nat.div_one,
    show 4 * q / 4 = q by omega, show 2 * p / 2 = p by omega, show 64 * M / 64 = M by omega,
    Nat.mul_div_cancel_left _ (show 0 < 32 * q by omega), div_mod_warp, ← Nat.div_div_eq_div_mul,
    Nat.div_eq_of_lt hj, Nat.mod_eq_of_lt hj]
  ring

theorem bWord_8 (ok : c.Ok K row col) (tid i j f : Nat) :
    bWord 8 c row col tid i (j * 2 + f) = fragWord 8 c.N
      (c.tkb * row + c.tkb / 2 * i + tid / 32 / (c.tnb / 4))
      (c.tnb / 4 * col + tid / 32 % (c.tnb / 4)) (tid % 32) j f := by
  obtain ⟨p, q, M, hp, hq, hM, hthr, q0⟩ := ok.dims
  simp only [bWord, fragWord, show ¬ (8 = 4) by decide, if_false, hp, hq, hM, hthr]
  rw [show 16 * (64 * M) / (32 / 8 * 4) = 64 * M by omega,
    show 4 * q * 16 * 16 / (32 / 8) / 4 = 64 * q by omega, show 64 * q / 2 = 32 * q by omega,
    show 4 * q / 4 = q by omega, show 2 * p / 2 = p by omega, show 64 * M / 64 = M by omega,
    Nat.mul_div_cancel_left _ (show 0 < 32 * q by omega), div_mod_warp, ← Nat.div_div_eq_div_mul]
  have hx := Nat.div_add_mod (j * 2 + f) 4
  generalize (j * 2 + f) / 4 = a at *
  generalize (j * 2 + f) % 4 = b at *
  have : j * 2 + f = 2 * j + f := by ring
  calc _ = 4 * (64 * M * p * i + (64 * M * (tid / 32 / q) + (32 * (tid / 32 % q) + tid % 32) * 2 + 64 * q * col
        + 64 * M * (2 * p) * row)) + (4 * a + b) := by ring
    _ = _ := by rw [hx]; ring

/-- The weights a thread unpacks. -/
theorem bQuant_field (b : Nat) (hb : b = 4 ∨ b = 8) (ok : c.Ok K row col) {B : Nat → Nat}
    {v : Nat → Nat → Nat} (hB : InTiles b K c.N B v) {tid i j f r h : Nat} (ht : tid < c.threads)
    (hreg : Reg i j f r h) :
    field b (bQuant b c B row col tid i j f).toNat (if b = 4 then r + 4 * h else r + 2 * h)
      = v (opRow c row tid i r h) (opCol c col tid j f) := by
  obtain ⟨hi, hj, hf, hr, hh⟩ := hreg
  obtain ⟨hkt, hnt, _⟩ := tile_bounds ok ht hi
  have hth : tid % 32 < 32 := Nat.mod_lt _ (by omega)
  have := hB _ _ (tid % 32) j f r h hkt hnt hth hj hf hr hh
  refine Eq.trans ?_ this
  rcases hb with rfl | rfl
  · simp only [bQuant, if_pos, fragPos]
    rw [bWord_4 ok tid i j f hj]
    interval_cases f
    · simp only [if_pos]
      rw [field_ofNat _ (by omega)]
      congr 1; omega
    · simp only [one_ne_zero, if_false]
      rw [field_bv, extract_sshift _ _ _ _ (by omega)]
      rw [show (r + 4 * h) * 4 + 8 = (2 * 1 + r + 4 * h) * 4 by ring, ← field_bv, field_ofNat _ (by omega)]
  · simp only [bQuant, fragPos, show ¬ (8 = 4) by decide, if_false]
    rw [bWord_8 ok tid i j f, field_ofNat _ (by omega)]

theorem groupOf_eq (ok : c.Ok K row col) {tid i : Nat} (ht : tid < c.threads) (hi : i < 2) (r h : Nat)
    (hr : r < 2) (hh : h < 2) :
    groupOf c row tid i = opRow c row tid i r h / (16 * c.gb) := by
  obtain ⟨_, _, hlt⟩ := tile_bounds ok ht hi
  have hg := ok.gb0
  have htk := ok.tkb2
  have hdiv : opRow c row tid i r h / (16 * c.gb)
      = (c.tkb * row + (c.tkb / 2 * i + tid / 32 / (c.tnb / 4))) / c.gb := by
    rw [← Nat.div_div_eq_div_mul]
    congr 1
    unfold opRow
    have : tid % 32 % 4 < 4 := Nat.mod_lt _ (by omega)
    rw [Nat.add_assoc]
    generalize c.tkb * row + (c.tkb / 2 * i + tid / 32 / (c.tnb / 4)) = x
    omega
  rw [hdiv]
  unfold groupOf
  dsimp only
  have he : (tid / 32 / (c.tnb / 4) * 16 + 16 * c.tkb / 2 * i) / 16 = c.tkb / 2 * i + tid / 32 / (c.tnb / 4) := by
    obtain ⟨p, hp⟩ : ∃ p, c.tkb = 2 * p := ⟨c.tkb / 2, by omega⟩
    rw [hp, show 16 * (2 * p) / 2 = 16 * p by omega, show 2 * p / 2 = p by omega, Nat.mul_assoc]
    generalize p * i = a
    omega
  rw [he]
  generalize c.tkb / 2 * i + tid / 32 / (c.tnb / 4) = x at *
  by_cases hge : c.gb ≥ c.tkb
  · rw [if_pos hge, Nat.add_zero]
    have hm : ∃ m, c.gb = c.tkb * m := by
      rcases ok.gfit with h1 | h1
      · exact ⟨c.gb / c.tkb, (Nat.mul_div_cancel' (Nat.dvd_of_mod_eq_zero h1)).symm⟩
      · have := Nat.le_of_dvd (by omega) (Nat.dvd_of_mod_eq_zero h1)
        exact ⟨1, by omega⟩
    obtain ⟨m, hm⟩ := hm
    rw [hm, ← Nat.div_div_eq_div_mul, ← Nat.div_div_eq_div_mul, Nat.mul_div_cancel_left _ (by omega),
      Nat.mul_add_div (by omega), Nat.div_eq_of_lt hlt, Nat.add_zero]
  · rw [if_neg hge]
    have h1 : c.tkb % c.gb = 0 := by
      rcases ok.gfit with h1 | h1
      · rw [Nat.mod_eq_of_lt (by omega)] at h1; omega
      · exact h1
    obtain ⟨m, hm⟩ : ∃ m, c.tkb = c.gb * m :=
      ⟨c.tkb / c.gb, (Nat.mul_div_cancel' (Nat.dvd_of_mod_eq_zero h1)).symm⟩
    rw [hm, Nat.mul_assoc, Nat.mul_div_cancel_left _ hg, Nat.mul_add_div hg]

theorem scalePerm_get : ∀ a, a < 8 → ∀ b, b < 8 → scalePerm.getD (8 * a + b) 0 = a + 8 * b := by
  decide +kernel

theorem scalePerm_len : scalePerm.length = 64 := by decide +kernel

/-- `gather` by the scale permutation -/
theorem gather_scale {α : Type} (x : Nat → α) (t a b : Nat) (ha : a < 8) (hb : b < 8) :
    gather scalePerm x (64 * t + (8 * a + b)) = x (64 * t + (a + 8 * b)) := by
  unfold gather
  rw [scalePerm_len, show (64 * t + (8 * a + b)) / 64 = t by omega,
    show (64 * t + (8 * a + b)) % 64 = 8 * a + b by omega, scalePerm_get a ha b hb, Nat.mul_comm t]

/-- The scale of a fragment. -/
theorem fragS_eq {α : Type} (ok : c.Ok K row col) (s : Nat → α) (junk : Nat → Nat → α) {tid i j f : Nat}
    (ht : tid < c.threads) (hj : j < 4) (hf : f < 2) :
    fragS c (gather scalePerm s) junk row col tid i j f
      = s (groupOf c row tid i * c.N + opCol c col tid j f) := by
  obtain ⟨p, q, M, hp, hq, hM, hthr, q0⟩ := ok.dims
  unfold fragS sRead stageRow opCol
  generalize groupOf c row tid i = g
  dsimp only
  simp only [hq, hM]
  rw [show 16 * (4 * q) / 8 = 8 * q by omega, show 4 * q / 4 = q by omega,
    show 64 * M / 8 = 8 * M by omega]
  have hw2 : tid / 32 % q < q := Nat.mod_lt _ q0
  have hp0 : 0 < p := by
    rcases Nat.eq_zero_or_pos p with rfl | h
    · rw [hthr] at ht; omega
    · exact h
  have hle : 32 * q ≤ c.threads := by rw [hthr]; exact Nat.le_mul_of_pos_right _ hp0
  rw [if_pos ⟨by omega, by omega⟩]
  have e : 8 * (8 * M * g + 8 * q * col + (8 * (tid / 32 % q) + tid % 32 / 4)) + (2 * j + f)
      = 64 * (M * g + q * col + tid / 32 % q) + (8 * (tid % 32 / 4) + (2 * j + f)) := by ring
  rw [e, gather_scale _ _ _ _ (by omega) (by omega)]
  congr 1; ring

/-! ## Zero points -/

theorem interleave_get : ∀ j, j < 4 → ∀ f, f < 2 → (interleave 4).getD (j + 4 * f) 0 = 2 * j + f := by
  decide

theorem undo_get : ∀ x, x < 8 → (argsort (interleave 4)).getD x 0 < 8 ∧
    awqOrder 4 ((argsort (interleave 4)).getD x 0) = x := by decide

/-- Column `n` of group `g` after the AWQ order is undone. -/
theorem unpack_eq {G M : Nat} {z : Nat → Nat} {zp : Nat → Nat → Nat} (hz : AwqPacked 4 G (64 * M) z zp)
    {g n : Nat} (hg : g < G) (hn : n < 64 * M) :
    gather (argsort (interleave 4)) (unpackCols 4 (64 * M) z) (g * (64 * M) + n) = zp g n := by
  obtain ⟨h1, h2⟩ := undo_get (n % 8) (Nat.mod_lt _ (by omega))
  unfold gather
  have hl : (argsort (interleave 4)).length = 8 := by decide
  have e1 : (g * (64 * M) + n) % 8 = n % 8 := by
    rw [show g * (64 * M) = 8 * (g * 8 * M) by ring]; omega
  have e2 : (g * (64 * M) + n) / 8 * 8 = g * (64 * M) + n / 8 * 8 := by
    rw [show g * (64 * M) = 8 * (g * 8 * M) by ring]; omega
  rw [hl, e1, e2]
  generalize (argsort (interleave 4)).getD (n % 8) 0 = u at *
  unfold unpackCols
  dsimp only
  have e3 : (g * (64 * M) + n / 8 * 8 + u) / (64 * M) = g := by
    rw [Nat.add_assoc, Nat.mul_comm, Nat.mul_add_div (by omega), Nat.div_eq_of_lt (by omega), Nat.add_zero]
  have e4 : (g * (64 * M) + n / 8 * 8 + u) % (64 * M) = n / 8 * 8 + u := by
    rw [Nat.add_assoc, Nat.mul_comm, Nat.mul_add_mod, Nat.mod_eq_of_lt (by omega)]
  rw [e3, e4, show (n / 8 * 8 + u) / (32 / 4) = n / 8 by omega, show (n / 8 * 8 + u) % (32 / 4) = u by omega,
    hz g (n / 8) u hg (by omega) (by omega), h2]
  congr 1; omega

theorem field_lt4 (w i : Nat) : field 4 w i < 2 ^ 4 := field_lt 4 w i

theorem packCols_field (N : Nat) (q : Nat → Nat) (hq : ∀ x, q x < 2 ^ 4) (w l : Nat) (hl : l < 8) :
    field 4 (packCols 4 N q w) l = q (w / (N / 8) * N + (w % (N / 8) * 8 + l)) := by
  unfold packCols
  dsimp only
  rw [field_packWord 4 (by omega) _ (by intro v hv; simp only [List.mem_map] at hv; obtain ⟨_, _, rfl⟩ := hv; exact hq _)]
  rw [List.getD_eq_getElem?_getD, List.getElem?_map, List.getElem?_range (by omega)]
  rfl

/-- The zero point of a fragment. -/
theorem zp_field (ok : c.Ok K row col) {G : Nat} {z : Nat → Nat} {zp : Nat → Nat → Nat}
    (hz : AwqPacked 4 G c.N z zp) (junk : Nat → Nat → Nat) {tid i j f : Nat} (ht : tid < c.threads)
    (hi : i < 2) (hj : j < 4) (hf : f < 2) (hg : groupOf c row tid i < G) :
    field 4 (zpRead c (awqToMarlinZeroPoints 4 c.N z) junk row col tid i).toNat (j + 4 * f)
      = zp (groupOf c row tid i) (opCol c col tid j f) := by
  obtain ⟨_, hnt, _⟩ := tile_bounds ok ht hi
  obtain ⟨p, q, M, hp, hq, hM, hthr, q0⟩ := ok.dims
  unfold zpRead stageRow opCol
  generalize groupOf c row tid i = g at *
  dsimp only
  simp only [hq, hM] at *
  rw [show 4 * q / 4 = q by omega, show 64 * M / 64 = M by omega] at hnt
  rw [show 16 * (4 * q) / 8 / 4 = 2 * q by omega, show 4 * q / 4 = q by omega,
    show 64 * M / 8 / 4 = 2 * M by omega]
  have hw2 : tid / 32 % q < q := Nat.mod_lt _ q0
  have hp0 : 0 < p := by
    rcases Nat.eq_zero_or_pos p with rfl | h
    · rw [hthr] at ht; omega
    · exact h
  have hle : 32 * q ≤ c.threads := by rw [hthr]; exact Nat.le_mul_of_pos_right _ hp0
  rw [if_pos ⟨by omega, by omega⟩, field_ofNat _ (by omega)]
  have hrd : 4 * (2 * M * g + 2 * q * col + (8 * (tid / 32 % q) + tid % 32 / 4) / 4)
      + (8 * (tid / 32 % q) + tid % 32 / 4) % 4
      = 8 * M * g + (8 * (q * col + tid / 32 % q) + tid % 32 / 4) := by
    have := Nat.div_add_mod (8 * (tid / 32 % q) + tid % 32 / 4) 4
    calc _ = 8 * M * g + 8 * (q * col) + (4 * ((8 * (tid / 32 % q) + tid % 32 / 4) / 4)
          + (8 * (tid / 32 % q) + tid % 32 / 4) % 4) := by ring
      _ = _ := by rw [this]; ring
  rw [hrd]
  unfold awqToMarlinZeroPoints marlinZeroPoints
  rw [packCols_field _ _ (fun x => by simp only [gather, unpackCols]; exact field_lt 4 _ _) _ _ (by omega)]
  rw [show 64 * M / 8 = 8 * M by omega]
  have e1 : (8 * M * g + (8 * (q * col + tid / 32 % q) + tid % 32 / 4)) / (8 * M) = g := by
    rw [Nat.mul_add_div (by omega), Nat.div_eq_of_lt (by omega), Nat.add_zero]
  have e2 : (8 * M * g + (8 * (q * col + tid / 32 % q) + tid % 32 / 4)) % (8 * M)
      = 8 * (q * col + tid / 32 % q) + tid % 32 / 4 := by
    rw [Nat.mul_add_mod, Nat.mod_eq_of_lt (by omega)]
  rw [e1, e2]
  have e3 : g * (64 * M) + ((8 * (q * col + tid / 32 % q) + tid % 32 / 4) * 8 + (j + 4 * f))
      = 8 * (g * 8 * M + (8 * (q * col + tid / 32 % q) + tid % 32 / 4)) + (j + 4 * f) := by ring
  have hil : (interleave 4).length = 8 := by decide
  have e4 : ∀ (x : Nat → Nat) (t l : Nat), l < 8 →
      gather (interleave 4) x (8 * t + l) = x (8 * t + (interleave 4).getD l 0) := by
    intro x t l hl
    unfold gather
    rw [hil, show (8 * t + l) / 8 = t by omega, show (8 * t + l) % 8 = l by omega, Nat.mul_comm t]
  rw [e3, e4 _ _ _ (by omega), interleave_get j hj f hf]
  have e5 : 8 * (g * 8 * M + (8 * (q * col + tid / 32 % q) + tid % 32 / 4)) + (2 * j + f)
      = 64 * (g * M + (q * col + tid / 32 % q)) + (8 * (tid % 32 / 4) + (2 * j + f)) := by ring
  rw [e5, gather_scale _ _ _ _ (by omega) (by omega)]
  have e6 : 64 * (g * M + (q * col + tid / 32 % q)) + (tid % 32 / 4 + 8 * (2 * j + f))
      = g * (64 * M) + (64 * (q * col + tid / 32 % q) + 16 * j + 8 * f + tid % 32 / 4) := by ring
  rw [e6, unpack_eq hz hg (by omega)]

/-! ## The theorems -/

theorem opRow_lt (ok : c.Ok K row col) {tid i r h : Nat} (ht : tid < c.threads) (hi : i < 2)
    (hr : r < 2) (hh : h < 2) : opRow c row tid i r h < K := by
  obtain ⟨h1, _, _⟩ := tile_bounds ok ht hi
  have := ok.k16
  unfold opRow
  have : tid % 32 % 4 < 4 := Nat.mod_lt _ (by omega)
  omega

theorem zp_select (zq : BitVec 32) (j f : Nat) (hj : j < 4) (hf : f < 2) :
    field 4 (if j < 2 then zq else zq.sshiftRight 8).toNat (j % 2 + 4 * f) = field 4 zq.toNat (j + 4 * f) := by
  by_cases h : j < 2
  · rw [if_pos h, Nat.mod_eq_of_lt h]
  · rw [if_neg h, field_bv, extract_sshift _ _ _ _ (by omega), field_bv]
    rw [show (j % 2 + 4 * f) * 4 + 8 = (j + 4 * f) * 4 by omega]

/-- **C158.** An AWQ layer with groups, fp16.  After the repacking of the weights, scales and zero
points, every register of every thread holds `(weight - zero point) * scale` of its own row and
column, where the difference is exact and the product is one multiplication of the device. -/
theorem C158_awq (A : FArith fp16) (ok : c.Ok K row col) (B : Nat → Nat) (v : Nat → Nat → Nat)
    (hB : InTiles 4 K c.N B v) (z : Nat → Nat) (zp : Nat → Nat → Nat)
    (hz : AwqPacked 4 (K / (16 * c.gb)) c.N z zp) (hK : K % (16 * c.gb) = 0) (s : Nat → Rat)
    (hgs : 16 * c.gb < K) (junkS : Nat → Nat → Rat) (junkZ : Nat → Nat → Nat)
    (tid i j f r h : Nat) (ht : tid < c.threads) (hreg : Reg i j f r h) :
    operandZp16 A c B (awqToMarlinZeroPoints 4 c.N z) (permuteScales (some (16 * c.gb)) K s) junkS junkZ
        row col tid i j f r h
      = A.mul (((v (opRow c row tid i r h) (opCol c col tid j f) : Int)
            - zp (opRow c row tid i r h / (16 * c.gb)) (opCol c col tid j f) : Int) : Rat)
          (s (opRow c row tid i r h / (16 * c.gb) * c.N + opCol c col tid j f)) := by
  obtain ⟨hi, hj, hf, hr, hh⟩ := hreg
  have hgrp := groupOf_eq ok ht hi r h hr hh
  have hG : groupOf c row tid i < K / (16 * c.gb) := by
    rw [hgrp]
    apply Nat.div_lt_div_of_lt_of_dvd (Nat.dvd_of_mod_eq_zero hK) (opRow_lt ok ht hi hr hh)
  have hps : permuteScales (some (16 * c.gb)) K s = gather scalePerm s := by
    simp [permuteScales, hgs]
  have hv := bQuant_field 4 (Or.inl rfl) ok hB ht ⟨hi, hj, hf, hr, hh⟩
  rw [if_pos rfl] at hv
  unfold operandZp16
  dsimp only
  rw [hps, fragS_eq ok s junkS ht hj hf, val_lo _ _ _ hr hh, val_lo _ _ _ (Nat.mod_lt _ (by omega)) hf,
    zp_select _ j f hj hf, zp_field ok hz junkZ ht hi hj hf hG, hv, hgrp]
  congr 1
  have l1 : v (opRow c row tid i r h) (opCol c col tid j f) < 16 := by rw [← hv]; exact field_lt 4 _ _
  have l2 : zp (opRow c row tid i r h / (16 * c.gb)) (opCol c col tid j f) < 16 := by
    rw [← hgrp, ← zp_field ok hz junkZ ht hi hj hf hG]; exact field_lt 4 _ _
  refine A.sub_int16 ?_ ?_ _ (by omega) (by omega) (by push_cast; ring)
  · rw [← hv, ← val_lo _ _ _ hr hh]; exact fp16.has_val _
  · rw [← hgrp, ← zp_field ok hz junkZ ht hi hj hf hG, ← zp_select _ j f hj hf,
      ← val_lo _ _ _ (Nat.mod_lt _ (by omega)) hf]
    exact fp16.has_val _

/-- **C158.** The same layer with bfloat16. -/
theorem C158_awq_bf16 (A : FArith bf16) (ok : c.Ok K row col) (B : Nat → Nat) (v : Nat → Nat → Nat)
    (hB : InTiles 4 K c.N B v) (z : Nat → Nat) (zp : Nat → Nat → Nat)
    (hz : AwqPacked 4 (K / (16 * c.gb)) c.N z zp) (hK : K % (16 * c.gb) = 0) (s : Nat → Rat)
    (hgs : 16 * c.gb < K) (junkS : Nat → Nat → Rat) (junkZ : Nat → Nat → Nat)
    (tid i j f r h : Nat) (ht : tid < c.threads) (hreg : Reg i j f r h) :
    operandZpB16 A c B (awqToMarlinZeroPoints 4 c.N z) (permuteScales (some (16 * c.gb)) K s) junkS junkZ
        row col tid i j f r h
      = A.mul (((v (opRow c row tid i r h) (opCol c col tid j f) : Int)
            - zp (opRow c row tid i r h / (16 * c.gb)) (opCol c col tid j f) : Int) : Rat)
          (s (opRow c row tid i r h / (16 * c.gb) * c.N + opCol c col tid j f)) := by
  obtain ⟨hi, hj, hf, hr, hh⟩ := hreg
  have hgrp := groupOf_eq ok ht hi r h hr hh
  have hG : groupOf c row tid i < K / (16 * c.gb) := by
    rw [hgrp]
    apply Nat.div_lt_div_of_lt_of_dvd (Nat.dvd_of_mod_eq_zero hK) (opRow_lt ok ht hi hr hh)
  have hps : permuteScales (some (16 * c.gb)) K s = gather scalePerm s := by
    simp [permuteScales, hgs]
  have hv := bQuant_field 4 (Or.inl rfl) ok hB ht ⟨hi, hj, hf, hr, hh⟩
  rw [if_pos rfl] at hv
  unfold operandZpB16
  dsimp only
  rw [hps, fragS_eq ok s junkS ht hj hf, val_loB _ _ _ hr hh, val_loB _ _ _ (Nat.mod_lt _ (by omega)) hf,
    zp_select _ j f hj hf, zp_field ok hz junkZ ht hi hj hf hG, hv, hgrp]
  congr 1
  have l1 : v (opRow c row tid i r h) (opCol c col tid j f) < 16 := by rw [← hv]; exact field_lt 4 _ _
  have l2 : zp (opRow c row tid i r h / (16 * c.gb)) (opCol c col tid j f) < 16 := by
    rw [← hgrp, ← zp_field ok hz junkZ ht hi hj hf hG]; exact field_lt 4 _ _
  refine A.sub_intB16 ?_ ?_ _ (by omega) (by omega) (by push_cast; ring)
  · rw [← hv, ← val_loB _ _ _ hr hh]; exact bf16.has_val _
  · rw [← hgrp, ← zp_field ok hz junkZ ht hi hj hf hG, ← zp_select _ j f hj hf,
      ← val_loB _ _ _ (Nat.mod_lt _ (by omega)) hf]
    exact bf16.has_val _

/-- **C158.** A symmetric (compressed-tensors, GPTQ) layer with groups, fp16, 4 and 8 bits: every
register holds `(stored value - bias) * scale`. -/
theorem C158_symmetric (A : FArith fp16) (t : QT) (b : Nat) (ht : (t = .u4b8 ∧ b = 4) ∨ (t = .u8b128 ∧ b = 8))
    (ok : c.Ok K row col) (B : Nat → Nat) (v : Nat → Nat → Nat) (hB : InTiles b K c.N B v)
    (s : Nat → Rat) (hgs : 16 * c.gb < K) (junkS : Nat → Nat → Rat)
    (tid i j f r h : Nat) (htid : tid < c.threads) (hreg : Reg i j f r h) :
    operandSym16 A t b c B (permuteScales (some (16 * c.gb)) K s) junkS row col tid i j f r h
      = A.mul (((v (opRow c row tid i r h) (opCol c col tid j f) : Int) - t.bias : Int) : Rat)
          (s (opRow c row tid i r h / (16 * c.gb) * c.N + opCol c col tid j f)) := by
  obtain ⟨hi, hj, hf, hr, hh⟩ := hreg
  have hgrp := groupOf_eq ok htid hi r h hr hh
  have hps : permuteScales (some (16 * c.gb)) K s = gather scalePerm s := by
    simp [permuteScales, hgs]
  unfold operandSym16
  rw [hps, fragS_eq ok s junkS htid hj hf, hgrp]
  rcases ht with ⟨rfl, rfl⟩ | ⟨rfl, rfl⟩
  · have hv := bQuant_field 4 (Or.inl rfl) ok hB htid ⟨hi, hj, hf, hr, hh⟩
    rw [if_pos rfl] at hv
    rw [C158_dequant_4 A _ (Or.inr rfl) _ _ _ hr hh, hv]
  · have hv := bQuant_field 8 (Or.inr rfl) ok hB htid ⟨hi, hj, hf, hr, hh⟩
    rw [if_neg (by decide)] at hv
    rw [C158_dequant_8 A _ (Or.inr rfl) _ _ _ hr hh, hv]

/-- **C158.** The same with bfloat16, 4 bits. -/
theorem C158_symmetric_bf16 (A : FArith bf16) (ok : c.Ok K row col) (B : Nat → Nat)
    (v : Nat → Nat → Nat) (hB : InTiles 4 K c.N B v) (s : Nat → Rat) (hgs : 16 * c.gb < K)
    (junkS : Nat → Nat → Rat) (tid i j f r h : Nat) (htid : tid < c.threads) (hreg : Reg i j f r h) :
    operandSymB16 A c B (permuteScales (some (16 * c.gb)) K s) junkS row col tid i j f r h
      = A.mul (((v (opRow c row tid i r h) (opCol c col tid j f) : Int) - 8 : Int) : Rat)
          (s (opRow c row tid i r h / (16 * c.gb) * c.N + opCol c col tid j f)) := by
  obtain ⟨hi, hj, hf, hr, hh⟩ := hreg
  have hgrp := groupOf_eq ok htid hi r h hr hh
  have hps : permuteScales (some (16 * c.gb)) K s = gather scalePerm s := by
    simp [permuteScales, hgs]
  have hv := bQuant_field 4 (Or.inl rfl) ok hB htid ⟨hi, hj, hf, hr, hh⟩
  rw [if_pos rfl] at hv
  unfold operandSymB16
  rw [hps, fragS_eq ok s junkS htid hj hf, hgrp, C158_dequant_bf16 A _ (Or.inr rfl) _ _ _ hr hh, hv]
  rfl

/-- **C158.** The registers of the thread block cover the block tile: every row and column of the
tile is in exactly one register of one thread. -/
theorem C158_cover (ok : c.Ok K row col) (k n : Nat) (hk : 16 * c.tkb * row ≤ k)
    (hk' : k < 16 * c.tkb * (row + 1)) (hn : 16 * c.tnb * col ≤ n) (hn' : n < 16 * c.tnb * (col + 1)) :
    ∃! x : Nat × Nat × Nat × Nat × Nat × Nat,
      x.1 < c.threads ∧ Reg x.2.1 x.2.2.1 x.2.2.2.1 x.2.2.2.2.1 x.2.2.2.2.2 ∧
      opRow c row x.1 x.2.1 x.2.2.2.2.1 x.2.2.2.2.2 = k ∧ opCol c col x.1 x.2.2.1 x.2.2.2.1 = n := by
  obtain ⟨p, q, M, hp, hq, hM, hthr, q0⟩ := ok.dims
  simp only [opRow, opCol, hp, hq, hthr, Reg] at *
  simp only [show 4 * q / 4 = q by omega, show 2 * p / 2 = p by omega]
  -- offsets in the tile
  obtain ⟨a, rfl⟩ : ∃ a, k = 16 * (2 * p) * row + a := ⟨k - 16 * (2 * p) * row, by omega⟩
  obtain ⟨b, rfl⟩ : ∃ b, n = 16 * (4 * q) * col + b := ⟨n - 16 * (4 * q) * col, by omega⟩
  have ha : a < 32 * p := by
    have : 16 * (2 * p) * (row + 1) = 16 * (2 * p) * row + 32 * p := by ring
    omega
  have hb : b < 64 * q := by
    have : 16 * (4 * q) * (col + 1) = 16 * (4 * q) * col + 64 * q := by ring
    omega
  have hp0 : 0 < p := by omega
  -- the equations, with the tile's corner cancelled
  have eqv : ∀ tid i j f r h : Nat,
      (16 * (2 * p * row + p * i + tid / 32 / q) + (tid % 32 % 4 * 2 + 8 * r + h) = 16 * (2 * p) * row + a ↔
        16 * (p * i + tid / 32 / q) + (tid % 32 % 4 * 2 + 8 * r + h) = a) ∧
      (64 * (q * col + tid / 32 % q) + 16 * j + 8 * f + tid % 32 / 4 = 16 * (4 * q) * col + b ↔
        64 * (tid / 32 % q) + 16 * j + 8 * f + tid % 32 / 4 = b) := by
    intro tid i j f r h
    have e1 : 16 * (2 * p) * row = 16 * (2 * p * row) := by ring
    have e2 : 16 * (4 * q) * col = 64 * (q * col) := by ring
    rw [e1, e2]
    generalize 2 * p * row = x
    generalize q * col = y
    generalize p * i = w
    generalize tid / 32 / q = u
    generalize tid / 32 % q = u'
    omega
  have hwr : a / 16 % p < p := Nat.mod_lt _ hp0
  have hi2 : a / 16 / p < 2 := Nat.div_lt_of_lt_mul (by omega)
  have hwc : b / 64 < q := Nat.div_lt_of_lt_mul (by omega)
  have hkb := Nat.div_add_mod (a / 16) p
  have hw : ∀ w l : Nat, l < 32 → (32 * w + l) / 32 = w ∧ (32 * w + l) % 32 = l := by
    intro w l hl; omega
  have hwq : ∀ x y : Nat, y < q → (q * x + y) / q = x ∧ (q * x + y) % q = y := by
    intro x y hy
    exact ⟨by rw [Nat.mul_add_div q0, Nat.div_eq_of_lt hy, Nat.add_zero], by
      rw [Nat.mul_add_mod, Nat.mod_eq_of_lt hy]⟩
  refine ⟨(32 * (q * (a / 16 % p) + b / 64) + (4 * (b % 8) + a % 8 / 2), a / 16 / p, b % 64 / 16,
    b % 16 / 8, a % 16 / 8, a % 2), ?_, ?_⟩
  · dsimp only
    have hl : 4 * (b % 8) + a % 8 / 2 < 32 := by omega
    obtain ⟨w1, w2⟩ := hw (q * (a / 16 % p) + b / 64) _ hl
    obtain ⟨x1, x2⟩ := hwq (a / 16 % p) (b / 64) hwc
    refine ⟨?_, ⟨hi2, by omega, by omega, by omega, by omega⟩, ?_, ?_⟩
    · have h1 : q * (a / 16 % p) + q ≤ q * p := by
        rw [show q * (a / 16 % p) + q = q * (a / 16 % p + 1) by ring]
        exact Nat.mul_le_mul_left q hwr
      rw [show 32 * q * p = 32 * (q * p) by ring]
      omega
    · rw [(eqv _ _ (b % 64 / 16) (b % 16 / 8) _ _).1, w1, w2, x1]
      omega
    · rw [(eqv _ 0 _ _ 0 0).2, w1, w2, x2]
      omega
  · rintro ⟨tid, i, j, f, r, h⟩ ⟨ht, ⟨hi, hj, hf, hr, hh⟩, e1, e2⟩
    dsimp only at *
    rw [(eqv tid i j f r h).1] at e1
    rw [(eqv tid 0 j f 0 0).2] at e2
    have hrow : tid / 32 / q < p := by
      rw [Nat.div_div_eq_div_mul]; exact Nat.div_lt_of_lt_mul ht
    have hcolw : tid / 32 % q < q := Nat.mod_lt _ q0
    have hd := Nat.div_add_mod (tid / 32) q
    have hd2 := Nat.div_add_mod tid 32
    have ea : a / 16 = p * i + tid / 32 / q := by
      generalize p * i + tid / 32 / q = u at *
      omega
    have ei : a / 16 / p = i ∧ a / 16 % p = tid / 32 / q := by
      rw [ea]
      exact ⟨by rw [Nat.mul_add_div hp0, Nat.div_eq_of_lt hrow, Nat.add_zero], by
        rw [Nat.mul_add_mod, Nat.mod_eq_of_lt hrow]⟩
    have eb : b / 64 = tid / 32 % q := by
      generalize tid / 32 % q = u at *
      omega
    rw [ei.1, ei.2, eb, hd]
    generalize hu : p * i + tid / 32 / q = u at *
    generalize hu' : tid / 32 % q = u' at *
    simp only [Prod.mk.injEq]
    refine ⟨?_, trivial, ?_, ?_, ?_, ?_⟩ <;> omega

end Verif.Marlin
