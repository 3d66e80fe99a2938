import Verif.Marlin.Host
import Verif.Marlin.StripeLemmas

/-!
# C155: the host loop and the choice of kernels
-/

namespace Verif.Marlin

/-- The rows of a launch are handled by whole row blocks. -/
structure Launch.Good (c : Call) (m : Nat) (l : Launch) : Prop where
  pos : 0 < l.rows
  tm : 1 ≤ l.tm ∧ l.tm ≤ 4
  rowsTm : 16 * l.tm < l.rows + 16
  conf : l.conf ∈ threadConfigs l.tm
  valid : validConfig c l.conf l.tm = true
  kernel : hasKernel c l.tm l.conf l.m8 = true
  blocks : (l.parallel = 1 ∧ l.rows ≤ l.blockRows) ∨ l.rows = l.parallel * l.blockRows
  le : l.rows ≤ m

/-- Consecutive launches from row `a` to row `b`. -/
def Cover : Nat → Nat → List Launch → Prop
  | a, b, [] => a = b
  | a, b, l :: ls => l.row = a ∧ 0 < l.rows ∧ Cover (a + l.rows) b ls

theorem splitRows_spec (c : Call) {maxM rest : Nat} (hm : 1 ≤ maxM) (hr : 0 < rest) :
    (∃ par, 0 < par ∧ splitRows c maxM rest = par * (maxM * 16) ∧ par * (maxM * 16) ≤ rest) ∨
    (splitRows c maxM rest = rest ∧ rest < maxM * 16) := by
  unfold splitRows
  obtain ⟨mp, hmp⟩ : ∃ mp, mp = (if c.n ≤ 4096 then 16 * 8 else 16) := ⟨_, rfl⟩
  have hmp0 : 0 < mp := by rw [hmp]; split_ifs <;> omega
  dsimp only
  rw [← hmp]
  have hd := Nat.div_mul_le_self rest (maxM * 16)
  have hlt : rest < (rest / (maxM * 16) + 1) * (maxM * 16) := by
    rw [Nat.mul_comm]; exact Nat.lt_mul_div_succ rest (by omega)
  obtain ⟨p, hp⟩ : ∃ p, p = rest / (maxM * 16) := ⟨_, rfl⟩
  rw [← hp] at hd hlt ⊢
  by_cases h0 : p = 0
  · right
    subst h0
    rw [if_neg (by split_ifs <;> omega)]
    omega
  · left
    by_cases h1 : p > mp
    · rw [if_pos h1, if_pos hmp0]
      exact ⟨mp, hmp0, rfl, le_trans (Nat.mul_le_mul_right _ (le_of_lt h1)) hd⟩
    · rw [if_neg h1, if_pos (by omega)]
      exact ⟨p, by omega, rfl, hd⟩

theorem divCeil16 (rows : Nat) : rows ≤ 16 * divCeil rows 16 ∧ 16 * divCeil rows 16 < rows + 16 :=
  divCeil_spec (by omega)

theorem launch_blocks (c : Call) {maxM rest : Nat} (hm : 1 ≤ maxM) (hr : 0 < rest) (row : Nat)
    (t : TConf) :
    let rows := splitRows c maxM rest
    let l : Launch := ⟨row, rows, min (divCeil rows 16) maxM, decide (rows ≤ 8), t⟩
    0 < rows ∧ rows ≤ rest ∧ 1 ≤ l.tm ∧ 16 * l.tm < rows + 16 ∧
      ((l.parallel = 1 ∧ l.rows ≤ l.blockRows) ∨ l.rows = l.parallel * l.blockRows) := by
  intro rows l
  have hdc := divCeil16 rows
  have hl1 : l.rows = rows := rfl
  have hl2 : l.tm = min (divCeil rows 16) maxM := rfl
  have hl3 : l.m8 = decide (rows ≤ 8) := rfl
  rcases splitRows_spec c hm hr with ⟨par, hp0, hs, hle⟩ | ⟨hs, hlt⟩
  · have hs' : rows = par * (maxM * 16) := hs
    have hge : maxM * 16 ≤ par * (maxM * 16) := Nat.le_mul_of_pos_left _ hp0
    have hgt : ¬ rows ≤ 8 := by omega
    have htm : l.tm = maxM := by rw [hl2]; omega
    have hbr : l.blockRows = 16 * maxM := by
      unfold Launch.blockRows; rw [hl3, decide_eq_false hgt, htm]; simp
    refine ⟨by omega, by omega, by omega, by omega, Or.inr ?_⟩
    unfold Launch.parallel
    rw [hbr, hl1, hs', Nat.mul_comm maxM 16]
    split_ifs with h1
    · rw [Nat.mul_div_cancel _ (by omega)]
    · have : par = 1 := by
        by_contra hne
        have h2 : 2 ≤ par := by omega
        have := Nat.mul_le_mul_right (16 * maxM) h2
        omega
      rw [this]
  · have hs' : rows = rest := hs
    have hdle : divCeil rows 16 ≤ maxM := by omega
    have htm : l.tm = divCeil rows 16 := by rw [hl2]; omega
    refine ⟨by omega, by omega, by omega, by omega, Or.inl ?_⟩
    have hbr : l.rows ≤ l.blockRows := by
      unfold Launch.blockRows
      rw [hl1, hl3, htm]
      by_cases h8 : rows ≤ 8
      · rw [decide_eq_true h8]; simpa using h8
      · rw [decide_eq_false h8]; simpa using hdc.1
    refine ⟨?_, hbr⟩
    unfold Launch.parallel
    rw [if_neg (by omega)]

theorem mmLoop_spec (c : Call) (m : Nat) : ∀ fuel row rest maxM, 1 ≤ maxM → maxM ≤ 4 → rest ≤ m →
    rest + maxM < fuel →
    mmLoop c fuel row rest maxM ≠ .error .hang ∧
    ∀ l, mmLoop c fuel row rest maxM = .ok l →
      Cover row (row + rest) l ∧ ∀ x ∈ l, x.Good c m := by
  intro fuel
  induction fuel with
  | zero => intro row rest maxM _ _ _ h; omega
  | succ fuel ih =>
    intro row rest maxM h1 h4 hm hf
    unfold mmLoop
    by_cases h0 : rest = 0
    · rw [if_pos h0]
      refine ⟨by simp, fun l hl => ?_⟩
      simp only [Except.ok.injEq] at hl
      subst hl
      exact ⟨by simp [Cover, h0], by simp⟩
    · rw [if_neg h0]
      dsimp only
      have hb := launch_blocks c h1 (by omega : 0 < rest) row
      dsimp only at hb
      cases hd : determineExec c (min (divCeil (splitRows c maxM rest) 16) maxM)
          (decide (splitRows c maxM rest ≤ 8)) with
      | none =>
        dsimp only
        by_cases hg : maxM > 1
        · rw [if_pos hg]; exact ih row rest (maxM - 1) (by omega) (by omega) hm (by omega)
        · rw [if_neg hg]; exact ⟨by simp, by simp⟩
      | some t =>
        dsimp only
        obtain ⟨hp, hle, ht1, ht2, hbl⟩ := hb t
        have hrec := ih (row + splitRows c maxM rest) (rest - splitRows c maxM rest) maxM h1 h4
          (by omega) (by omega)
        cases hq : mmLoop c fuel (row + splitRows c maxM rest) (rest - splitRows c maxM rest) maxM with
        | error e =>
          rw [hq] at hrec
          exact ⟨hrec.1, by simp⟩
        | ok l =>
          dsimp only
          refine ⟨by simp, fun l' hl' => ?_⟩
          simp only [Except.ok.injEq] at hl'
          subst hl'
          obtain ⟨hc, hg⟩ := hrec.2 l hq
          have hmem := List.mem_of_find?_eq_some hd
          have hprop := List.find?_some hd
          rw [Bool.and_eq_true] at hprop
          refine ⟨⟨rfl, hp, ?_⟩, ?_⟩
          · have e : row + splitRows c maxM rest + (rest - splitRows c maxM rest) = row + rest := by
              omega
            rw [e] at hc; exact hc
          · intro x hx
            rcases List.mem_cons.1 hx with rfl | hx
            · exact ⟨hp, ⟨ht1, by dsimp only; omega⟩, ht2, hmem, hprop.1, hprop.2, hbl,
                le_trans hle hm⟩
            · exact hg x hx

theorem Cover.spec : ∀ {l : List Launch} {a b : Nat}, Cover a b l →
    a ≤ b ∧ (∀ x ∈ l, a ≤ x.row ∧ x.row + x.rows ≤ b) ∧
    ∀ r, a ≤ r → r < b → ∃! x, x ∈ l ∧ x.row ≤ r ∧ r < x.row + x.rows := by
  intro l
  induction l with
  | nil => intro a b h; simp [Cover] at h; subst h; exact ⟨le_refl _, by simp, by intro r h1 h2; omega⟩
  | cons y ys ih =>
    intro a b h
    obtain ⟨h1, h2, h3⟩ := h
    obtain ⟨g1, g2, g3⟩ := ih h3
    refine ⟨by omega, ?_, ?_⟩
    · intro x hx
      rcases List.mem_cons.1 hx with rfl | hx
      · omega
      · have := g2 x hx; omega
    · intro r hr1 hr2
      by_cases hlt : r < a + y.rows
      · refine ⟨y, ⟨List.mem_cons_self, by omega, by omega⟩, ?_⟩
        rintro z ⟨hz, z1, z2⟩
        rcases List.mem_cons.1 hz with rfl | hz
        · rfl
        · have := g2 z hz; omega
      · obtain ⟨x, ⟨hx, x1, x2⟩, hu⟩ := g3 r (by omega) hr2
        refine ⟨x, ⟨List.mem_cons_of_mem _ hx, x1, x2⟩, ?_⟩
        rintro z ⟨hz, z1, z2⟩
        rcases List.mem_cons.1 hz with rfl | hz
        · omega
        · exact hu z ⟨hz, z1, z2⟩

/-- What `marlin_mm` amounts to once its checks have passed. -/
theorem marlinMM_ok {c : Call} {m : Nat} {l : List Launch} (h : marlinMM c m = .ok l) :
    mmLoop c (m + 5) 0 m 4 = .ok l := by
  unfold marlinMM at h
  rw [ite_eq_iff] at h
  rcases h with ⟨_, h⟩ | ⟨_, h⟩
  · cases h
  rw [ite_eq_iff] at h
  rcases h with ⟨_, h⟩ | ⟨_, h⟩
  · cases h
  rw [ite_eq_iff] at h
  rcases h with ⟨_, h⟩ | ⟨_, h⟩
  · cases h
  cases hgb : groupBlocks c with
  | none => rw [hgb] at h; exact h
  | some gb => rw [hgb] at h; dsimp only at h; split_ifs at h <;> exact h

/-- **C155.** For every call: if `marlin_mm` succeeds, every row of the output is computed by
exactly one launch, no launch goes past the last row, and every launch covers its rows with whole
row blocks (`parallel` blocks of `m_block_size` rows, or one block with rows to spare). -/
theorem C155_rows_once (c : Call) (m : Nat) (l : List Launch) (h : marlinMM c m = .ok l) :
    (∀ r, r < m → ∃! x, x ∈ l ∧ x.row ≤ r ∧ r < x.row + x.rows) ∧
    (∀ x ∈ l, x.row + x.rows ≤ m) ∧
    (∀ x ∈ l, ∀ r, r < x.rows → r / x.blockRows < x.parallel) ∧
    (∀ x ∈ l, x.parallel > 1 → x.rows = x.parallel * x.blockRows) := by
  have hs := (mmLoop_spec c m (m + 5) 0 m 4 (by omega) (by omega) (le_refl _) (by omega)).2 l
    (marlinMM_ok h)
  obtain ⟨hcv, hg⟩ := hs
  obtain ⟨_, h2, h3⟩ := hcv.spec
  refine ⟨fun r hr => h3 r (by omega) (by omega), fun x hx => by have := h2 x hx; omega,
    fun x hx r hr => ?_, fun x hx hp => ?_⟩
  · have hb : 0 < x.blockRows := by
      unfold Launch.blockRows; have := (hg x hx).tm; split_ifs <;> omega
    rw [Nat.div_lt_iff_lt_mul hb]
    rcases (hg x hx).blocks with ⟨e, hle⟩ | e
    · rw [e]; omega
    · omega
  · rcases (hg x hx).blocks with ⟨e, hle⟩ | e
    · omega
    · exact e

/-- **C155.** The loop always ends, with launches or with an error. -/
theorem C155_terminates (c : Call) (m : Nat) : marlinMM c m ≠ .error .hang := by
  have hs := (mmLoop_spec c m (m + 5) 0 m 4 (by omega) (by omega) (le_refl _) (by omega)).1
  unfold marlinMM
  cases hgb : groupBlocks c with
  | none => dsimp only; split_ifs <;> first | exact hs | simp
  | some gb => dsimp only; split_ifs <;> first | exact hs | simp

/-- The calls the Python layers make: integer weights with the group sizes they accept. -/
structure Call.Usual (c : Call) : Prop where
  q : c.q = .u4 ∨ c.q = .u4b8 ∨ c.q = .u8b128
  zp : c.hasZp = true ↔ c.q = .u4
  g : c.gsize = .one ∨ c.gsize = .size 32 ∨ c.gsize = .size 64 ∨ c.gsize = .size 128
  act : c.hasAct = false
  zpf : c.zpFloat = false

/-- Every launch of a usual call, listed. -/
theorem usual_cases {c : Call} (hu : c.Usual) :
    ∃ q ∈ [QType.u4, .u4b8, .u8b128], ∃ g ∈ [GSize.one, .size 32, .size 64, .size 128],
      ∃ half kFull : Bool, ∃ n k shared : Nat,
      c = ⟨q, half, n, k, g, false, kFull, q == .u4, false, shared⟩ := by
  obtain ⟨q, half, n, k, g, act, kf, zp, zpf, sh⟩ := c
  obtain ⟨h1, h2, h3, h4, h5⟩ := hu
  dsimp only at *
  subst h4 h5
  have hz : zp = (q == .u4) := by
    cases zp <;> rcases h1 with rfl | rfl | rfl <;> simp_all
  subst hz
  refine ⟨q, ?_, g, ?_, half, kf, n, k, sh, rfl⟩
  · rcases h1 with rfl | rfl | rfl <;> simp
  · rcases h3 with rfl | rfl | rfl | rfl <;> simp

theorem cache_indep (q half n k g kf sh) (t : TConf) (tm : Nat) :
    kernelCache ⟨q, half, n, k, g, false, kf, q == .u4, false, sh⟩ t tm =
      kernelCache ⟨q, true, 0, 0, g, false, true, q == .u4, false, 0⟩ t tm := rfl

theorem shared_indep (q half n k g kf sh) (row rows tm : Nat) (m8 : Bool) (t : TConf) :
    kernelShared ⟨q, half, n, k, g, false, kf, q == .u4, false, sh⟩ ⟨row, rows, tm, m8, t⟩ =
      kernelShared ⟨q, true, 0, 0, g, false, true, q == .u4, false, 0⟩ ⟨0, 0, tm, m8, t⟩ := rfl

/-- The configuration that always fits: 128 × 64 tiles, one row block. -/
theorem smallest_fits {c : Call} (hu : c.Usual) (hn : c.n % 64 = 0) (hk : c.k % 128 = 0)
    (hs : 51712 ≤ c.shared) (m8 : Bool) : ∃ t, determineExec c 1 m8 = some t := by
  have : (validConfig c ⟨128, 64, 128⟩ 1 && hasKernel c 1 ⟨128, 64, 128⟩ m8) = true := by
    obtain ⟨q, hq, g, hg, half, kf, n, k, sh, rfl⟩ := usual_cases hu
    dsimp only at hn hk hs
    have hv : ∀ v, kernelCache ⟨q, half, n, k, g, false, kf, q == .u4, false, sh⟩ ⟨128, 64, 128⟩ 1 = v →
        v ≤ 51712 →
        validConfig ⟨q, half, n, k, g, false, kf, q == .u4, false, sh⟩ ⟨128, 64, 128⟩ 1 = true := by
      intro v hv hle
      simp only [validConfig, hv, hn, hk]
      simp; omega
    have hker : hasKernel ⟨q, half, n, k, g, false, kf, q == .u4, false, sh⟩ 1 ⟨128, 64, 128⟩ m8 = true := by
      simp only [List.mem_cons, List.not_mem_nil, or_false] at hq hg
      rcases hq with rfl | rfl | rfl <;> rcases hg with rfl | rfl | rfl | rfl <;>
        cases m8 <;> cases kf <;> cases half <;> rfl
    have hval := hv _ rfl (by
      simp only [List.mem_cons, List.not_mem_nil, or_false] at hq hg
      rw [cache_indep]
      rcases hq with rfl | rfl | rfl <;> rcases hg with rfl | rfl | rfl | rfl <;> decide)
    rw [hval, hker]; rfl
  unfold determineExec
  cases hf : (threadConfigs 1).find? (fun t => validConfig c t 1 && hasKernel c 1 t m8) with
  | some t => exact ⟨t, rfl⟩
  | none =>
    rw [List.find?_eq_none] at hf
    exact absurd this (hf ⟨128, 64, 128⟩ (by simp [threadConfigs]))

theorem mmLoop_succeeds {c : Call} (hu : c.Usual) (hn : c.n % 64 = 0) (hk : c.k % 128 = 0)
    (hs : 51712 ≤ c.shared) : ∀ fuel row rest maxM, 1 ≤ maxM → rest + maxM < fuel →
    ∃ l, mmLoop c fuel row rest maxM = .ok l := by
  intro fuel
  induction fuel with
  | zero => intro row rest maxM _ h; omega
  | succ fuel ih =>
    intro row rest maxM h1 hf
    unfold mmLoop
    by_cases h0 : rest = 0
    · rw [if_pos h0]; exact ⟨_, rfl⟩
    · rw [if_neg h0]
      dsimp only
      have hb := launch_blocks c h1 (by omega : 0 < rest) row ⟨128, 64, 128⟩
      dsimp only at hb
      cases hd : determineExec c (min (divCeil (splitRows c maxM rest) 16) maxM)
          (decide (splitRows c maxM rest ≤ 8)) with
      | some t =>
        dsimp only
        obtain ⟨l, hl⟩ := ih (row + splitRows c maxM rest) (rest - splitRows c maxM rest) maxM h1
          (by omega)
        rw [hl]; exact ⟨_, rfl⟩
      | none =>
        dsimp only
        by_cases hg : maxM > 1
        · rw [if_pos hg]; exact ih row rest (maxM - 1) (by omega) (by omega)
        · exfalso
          have e : min (divCeil (splitRows c maxM rest) 16) maxM = 1 := by
            have := hb.2.2.1; omega
          obtain ⟨t, ht⟩ := smallest_fits hu hn hk hs (decide (splitRows c maxM rest ≤ 8))
          rw [e, ht] at hd
          cases hd

/-- **C155.** On every device with at least 51712 bytes of shared memory per block, `marlin_mm`
finds kernels for every batch size and every weight whose sizes the Python layers accept. -/
theorem C155_supported {c : Call} (hu : c.Usual) (hn : c.n % 64 = 0) (hk : c.k % 128 = 0)
    (hn0 : 0 < c.n) (hk0 : 0 < c.k) (hs : 51712 ≤ c.shared) (m : Nat) (hm : 0 < m) :
    ∃ l, marlinMM c m = .ok l := by
  have hl : ∃ l, mmLoop c (m + 5) 0 m 4 = .ok l :=
    mmLoop_succeeds hu hn hk hs _ _ _ _ (by omega) (by omega)
  unfold marlinMM
  rw [if_neg, if_neg, if_neg (by omega)]
  · obtain ⟨q, hq, g, hg, half, kf, n, k, sh, rfl⟩ := usual_cases hu
    dsimp only at hn hk hs hn0 hk0 ⊢
    simp only [List.mem_cons, List.not_mem_nil, or_false] at hq hg
    rcases hg with rfl | rfl | rfl | rfl
    · simpa [groupBlocks] using hl
    · have : k % 2 = 0 := by omega
      simpa [groupBlocks, this] using hl
    · have : k % 4 = 0 := by omega
      simpa [groupBlocks, this] using hl
    · have : k % 8 = 0 := by omega
      simpa [groupBlocks, this] using hl
  · intro ⟨h1, h2⟩
    apply h2
    rcases hu.q with h | h | h
    · exact absurd (hu.zp.2 h) h1
    · exact Or.inl h
    · exact Or.inr (Or.inl h)
  · intro ⟨h1, h2⟩
    exact h2 (Or.inl (hu.zp.1 h1))

/-- **C155.** Every launch of such a call fits: the kernel's shared-memory layout lies within what
the device has, its tile sizes divide the weight, and a kernel was instantiated for it. -/
theorem C155_launches_fit {c : Call} (hu : c.Usual) (hs : 71680 ≤ c.shared) (m : Nat)
    (l : List Launch) (h : marlinMM c m = .ok l) (x : Launch) (hx : x ∈ l) :
    kernelShared c x ≤ c.shared ∧ c.k % x.conf.k = 0 ∧ c.n % x.conf.n = 0 ∧
      hasKernel c x.tm x.conf x.m8 = true := by
  have hg := ((mmLoop_spec c m (m + 5) 0 m 4 (by omega) (by omega) (le_refl _) (by omega)).2 l
    (marlinMM_ok h)).2 x hx
  have hv := hg.valid
  have hdiv : c.k % x.conf.k = 0 ∧ c.n % x.conf.n = 0 := by
    simp only [validConfig, Bool.and_eq_true, beq_iff_eq] at hv
    exact ⟨hv.1.1.1.1.1, hv.1.1.1.1.2⟩
  have hcache : kernelCache c x.conf x.tm ≤ c.shared := by
    simp only [validConfig, Bool.and_eq_true, decide_eq_true_eq] at hv
    exact hv.2
  refine ⟨?_, hdiv.1, hdiv.2, hg.kernel⟩
  have htm := hg.tm
  have hconf := hg.conf
  clear hv hdiv hg hx h
  obtain ⟨q, hq, g, hgs, half, kf, n, k, sh, rfl⟩ := usual_cases hu
  obtain ⟨row, rows, tm, m8, t⟩ := x
  dsimp only at *
  have key : kernelShared ⟨q, half, n, k, g, false, kf, q == .u4, false, sh⟩ ⟨row, rows, tm, m8, t⟩
      ≤ max 71680 (kernelCache ⟨q, half, n, k, g, false, kf, q == .u4, false, sh⟩ t tm) := by
    simp only [List.mem_cons, List.not_mem_nil, or_false] at hq hgs
    have htm' : tm = 1 ∨ tm = 2 ∨ tm = 3 ∨ tm = 4 := by omega
    clear hu hs hcache htm
    rw [cache_indep, shared_indep]
    rcases htm' with rfl | rfl | rfl | rfl <;>
      (simp only [threadConfigs, gt_iff_lt, Nat.lt_irrefl, Nat.one_lt_ofNat, if_true, if_false,
        List.mem_cons, List.not_mem_nil, or_false] at hconf
       rcases hconf with rfl | rfl | rfl <;> rcases hq with rfl | rfl | rfl <;>
         rcases hgs with rfl | rfl | rfl | rfl <;> cases m8 <;> decide)
  omega

/-- **C155.** The fp32 scratch buffer the Python wrapper allocates is large enough for every launch
and every lock below the number of multiprocessors. -/
theorem C155_scratch_size (c : Call) (m : Nat) (l : List Launch) (h : marlinMM c m = .ok l)
    (x : Launch) (hx : x ∈ l) (sms lock i : Nat) (hl : lock < sms)
    (hi : i < (16 * x.tm) * x.conf.n) :
    lock * ((16 * x.tm) * x.conf.n) + i < cTmpFloats sms m := by
  have hg := ((mmLoop_spec c m (m + 5) 0 m 4 (by omega) (by omega) (le_refl _) (by omega)).2 l
    (marlinMM_ok h)).2 x hx
  have hn : x.conf.n ≤ 256 := by
    have := hg.conf
    unfold threadConfigs at this
    split_ifs at this <;> simp at this <;> rcases this with e | e | e <;> rw [e] <;> simp
  have hmm : 16 * x.tm ≤ min ((m + 15) / 16 * 16) 64 := by
    have h1 := hg.tm
    have h2 := hg.rowsTm
    have h3 := hg.le
    omega
  have hprod : (16 * x.tm) * x.conf.n ≤ min ((m + 15) / 16 * 16) 64 * 256 := Nat.mul_le_mul hmm hn
  have h1 : (lock + 1) * ((16 * x.tm) * x.conf.n) ≤ sms * (min ((m + 15) / 16 * 16) 64 * 256) :=
    Nat.mul_le_mul hl hprod
  have e : (lock + 1) * ((16 * x.tm) * x.conf.n)
      = lock * ((16 * x.tm) * x.conf.n) + (16 * x.tm) * x.conf.n := by
    rw [Nat.add_mul, Nat.one_mul]
  unfold cTmpFloats
  rw [Nat.mul_assoc sms]
  rw [e] at h1
  exact lt_of_lt_of_le (Nat.add_lt_add_left hi _) h1

/-! ## The Python layers -/

theorem createWith_ok {q : QType} {zp : Bool} {g : Int} {out inp inputSize : Nat} {w : Weights}
    (h : createWith q zp g out inp inputSize = .ok w) :
    out % 64 = 0 ∧ inp % 128 = 0 ∧ (g < inputSize → (inp : Int).fmod g = 0) ∧
    0 ≤ (inp : Int).fdiv g ∧
    w = ⟨q, out, inp, ((inp : Int).fdiv g).toNat, if zp then ((inp : Int).fdiv g).toNat else 0⟩ := by
  unfold createWith at h
  rw [ite_eq_iff] at h
  rcases h with ⟨_, h⟩ | ⟨h1, h⟩
  · cases h
  rw [ite_eq_iff] at h
  rcases h with ⟨_, h⟩ | ⟨h2, h⟩
  · cases h
  simp only [Except.ok.injEq] at h
  unfold shapeOk at h1
  rw [Bool.not_eq_false] at h1
  simp only [Bool.and_eq_true, beq_iff_eq] at h1
  obtain ⟨⟨h1a, h1b⟩, h1c⟩ := h1
  exact ⟨h1a, h1b, fun hlt => by simpa [hlt] using h1c, by omega, h.symm⟩

/-- A layer with `r ≥ 1` whole groups works. -/
theorem gemm_works {q : QType} {zp : Bool} (hq : (q = .u4 ∧ zp = true) ∨ (q = .u4b8 ∧ zp = false))
    {out inp r : Nat} (ho : 0 < out) (hi : 0 < inp) (h1 : out % 64 = 0) (h2 : inp % 128 = 0)
    (hr : 1 ≤ r) (hg : r = 1 ∨ ∃ gn, (gn = 32 ∨ gn = 64 ∨ gn = 128) ∧ inp = gn * r)
    (half : Bool) (shared : Nat) (hs : 51712 ≤ shared) (m : Nat) :
    ∃ l, gemm ⟨q, out, inp, r, if zp then r else 0⟩ half shared m = .ok l := by
  unfold gemm
  dsimp only
  rw [if_neg (by omega)]
  by_cases hm : m = 0
  · rw [if_pos hm]; exact ⟨_, rfl⟩
  rw [if_neg hm, if_neg (by cases zp <;> simp)]
  have hsup : ∀ g, (g = .one ∨ g = .size 32 ∨ g = .size 64 ∨ g = .size 128) →
      ∃ l, marlinMM ⟨q, half, out, inp, g, false, true, decide ((if zp then r else 0) > 0), false,
        shared⟩ m = .ok l := by
    intro g hgc
    refine C155_supported ⟨?_, ?_, hgc, rfl, rfl⟩ h1 h2 ho hi hs m (by omega)
    · rcases hq with ⟨rfl, rfl⟩ | ⟨rfl, rfl⟩ <;> simp
    · rcases hq with ⟨rfl, rfl⟩ | ⟨rfl, rfl⟩
      · simp; omega
      · simp
  unfold deriveGroup
  simp only [Bool.false_eq_true, if_false]
  rcases hg with e | ⟨gn, hgn, e⟩
  · rw [if_neg (by omega)]
    exact hsup .one (Or.inl rfl)
  · by_cases hr1 : r > 1
    · rw [if_pos hr1, if_neg (by rw [e]; simp)]
      have : inp / r = gn := by rw [e]; exact Nat.mul_div_cancel _ (by omega)
      rw [this]
      exact hsup (.size gn) (by rcases hgn with rfl | rfl | rfl <;> simp)
    · rw [if_neg hr1]
      exact hsup .one (Or.inl rfl)

/-- Number of groups for a positive group size. -/
theorem groups_pos {inp gn : Nat} (hg : 0 < gn) (hi : 0 < inp) (hf : (inp : Int).fmod gn = 0) :
    ∃ r, 1 ≤ r ∧ inp = gn * r ∧ ((inp : Int).fdiv gn).toNat = r := by
  have e1 : (inp : Int).fdiv gn = ((inp / gn : Nat) : Int) := by
    rw [Int.fdiv_eq_ediv_of_nonneg _ (by omega)]; simp
  have e2 : inp % gn = 0 := by
    rw [Int.fmod_eq_emod_of_nonneg _ (by omega)] at hf; exact_mod_cast hf
  have e3 : inp = gn * (inp / gn) := by have := Nat.div_add_mod inp gn; omega
  refine ⟨inp / gn, ?_, e3, by rw [e1, Int.toNat_natCast]⟩
  rcases Nat.eq_zero_or_pos (inp / gn) with h0 | h0
  · rw [h0] at e3; omega
  · exact h0

/-- **C155.** Every symmetric 4-bit layer that `create_weights` accepts with a positive group size
works for every batch size. -/
theorem C155_compressed_layers (group : Int) (hg : group = 32 ∨ group = 64 ∨ group = 128)
    (out inp inputSize : Nat) (ho : 0 < out) (hi : 0 < inp) (hlt : group < inputSize) (w : Weights)
    (h : ctCreate group out inp inputSize = .ok w) (half : Bool) (shared : Nat)
    (hs : 51712 ≤ shared) (m : Nat) : ∃ l, gemm w half shared m = .ok l := by
  obtain ⟨h1, h2, h3, _, rfl⟩ := createWith_ok h
  obtain ⟨gn, rfl, hgn⟩ : ∃ gn : Nat, group = gn ∧ (gn = 32 ∨ gn = 64 ∨ gn = 128) := by
    rcases hg with rfl | rfl | rfl
    · exact ⟨32, rfl, by simp⟩
    · exact ⟨64, rfl, by simp⟩
    · exact ⟨128, rfl, by simp⟩
  obtain ⟨r, hr, e, e'⟩ := groups_pos (by omega) hi (h3 hlt)
  rw [e']
  exact gemm_works (Or.inr ⟨rfl, rfl⟩) ho hi h1 h2 hr (Or.inr ⟨gn, hgn, e⟩) half shared hs m

/-- **C155, violated.** `group_size = -1` is listed as supported for compressed-tensors models, but
creating any layer with it fails: the number of groups is computed as `input_size // -1`. -/
theorem C155_compressed_channel_violated (out inp inputSize : Nat) (hi : 0 < inp) (w : Weights) :
    (-1 : Int) ∈ supportedGroups ∧ ctCreate (-1) out inp inputSize ≠ .ok w := by
  refine ⟨by decide, fun h => ?_⟩
  obtain ⟨_, _, _, h4, _⟩ := createWith_ok h
  obtain ⟨k, rfl⟩ : ∃ k, inp = k + 1 := ⟨inp - 1, by omega⟩
  have : Int.fdiv ((k + 1 : Nat) : Int) (-1) = Int.negSucc (k / 1) := rfl
  rw [this] at h4
  exact absurd h4 (by have := Int.negSucc_lt_zero (k / 1); omega)

/-- **C155, violated.** 8-bit AWQ is accepted by the configuration, and its layers are created, but
no kernel exists for it: every call with at least one row fails, on every device. -/
theorem C155_awq8_violated (group : Int) (out inp inputSize : Nat) (w : Weights)
    (h : awqCreate true group out inp inputSize = .ok w) (half : Bool) (shared m : Nat)
    (hm : 0 < m) (l : List Launch) : gemm w half shared m ≠ .ok l := by
  have hq : w.q = .u8 := by
    obtain ⟨_, _, _, _, rfl⟩ := createWith_ok h
    rfl
  have hno : ∀ (c : Call), c.q = .u8 → c.zpFloat = false → ∀ fuel row rest maxM l, 0 < rest →
      mmLoop c fuel row rest maxM ≠ .ok l := by
    intro c hc hz fuel
    induction fuel with
    | zero => intro row rest maxM l _ hx; cases hx
    | succ fuel ih =>
      intro row rest maxM l hr
      unfold mmLoop
      rw [if_neg (by omega)]
      dsimp only
      have : ∀ tm m8, determineExec c tm m8 = none := by
        intro tm m8
        unfold determineExec
        rw [List.find?_eq_none]
        intro t _
        simp [hasKernel, hc, hz]
      rw [this]
      dsimp only
      by_cases h1 : maxM > 1
      · rw [if_pos h1]; exact ih _ _ _ _ hr
      · rw [if_neg h1]; simp
  intro hok
  unfold gemm at hok
  rw [ite_eq_iff] at hok
  rcases hok with ⟨_, hok⟩ | ⟨_, hok⟩
  · cases hok
  rw [if_neg (by omega), ite_eq_iff] at hok
  rcases hok with ⟨_, hok⟩ | ⟨_, hok⟩
  · cases hok
  cases hdg : deriveGroup w.k w.groups false true with
  | error e => rw [hdg] at hok; cases hok
  | ok g =>
    rw [hdg] at hok
    exact hno _ hq rfl _ _ _ _ _ hm (marlinMM_ok hok)

/-- The hypothesis is met: such layers are created. -/
example : awqCreate true 128 256 1024 1024 = .ok ⟨.u8, 256, 1024, 8, 8⟩ := by decide

/-- **C155, violated.** An AWQ model with `group_size = -1` whose layer is split along the input
(row-parallel) gets tensors with *no* groups, and every call with at least one row fails. -/
theorem C155_awq_row_parallel_violated (out inp inputSize : Nat) (hlt : inp < inputSize)
    (w : Weights) (h : awqCreate false (-1) out inp inputSize = .ok w) (half : Bool)
    (shared m : Nat) (hm : 0 < m) (l : List Launch) : gemm w half shared m ≠ .ok l := by
  obtain ⟨h1, h2, _, _, rfl⟩ := createWith_ok h
  have hz : (inp : Int).fdiv (awqGroup (-1) inputSize) = 0 := by
    show (inp : Int).fdiv (inputSize : Int) = 0
    rw [Int.fdiv_eq_ediv_of_nonneg _ (by omega)]
    exact Int.ediv_eq_zero_of_lt (by omega) (by omega)
  rw [hz]
  unfold gemm deriveGroup
  rw [if_neg (by dsimp only; omega), if_neg (by omega)]
  simp [marlinMM, awqType]

example : awqCreate false (-1) 256 1024 2048 = .ok ⟨.u4, 256, 1024, 0, 0⟩ := by decide

/-- **C155**, what holds for AWQ: with 4 bits and a group size the configuration accepts, every
layer that is created works for every batch size — provided a layer with one group for the whole
input is not split along the input. -/
theorem C155_awq4_partial (group : Int) (hg : group ∈ supportedGroups) (out inp inputSize : Nat)
    (ho : 0 < out) (hi : 0 < inp) (hfull : group = -1 → inp = inputSize)
    (hlt : group < inputSize) (w : Weights)
    (h : awqCreate false group out inp inputSize = .ok w) (half : Bool) (shared : Nat)
    (hs : 51712 ≤ shared) (m : Nat) : ∃ l, gemm w half shared m = .ok l := by
  obtain ⟨h1, h2, h3, _, rfl⟩ := createWith_ok h
  simp only [supportedGroups, List.mem_cons, List.not_mem_nil, or_false] at hg
  by_cases hg1 : group = -1
  · have hii := hfull hg1
    subst hii
    have e1 : (inp : Int).fdiv (awqGroup group inp) = 1 := by
      rw [hg1]
      show (inp : Int).fdiv (inp : Int) = 1
      rw [Int.fdiv_eq_ediv_of_nonneg _ (by omega)]; exact Int.ediv_self (by omega)
    rw [e1]
    exact gemm_works (Or.inl ⟨rfl, rfl⟩) ho hi h1 h2 (le_refl 1) (Or.inl rfl) half shared hs m
  · have hag : awqGroup group inputSize = group := by unfold awqGroup; rw [if_pos hg1]
    rw [hag] at h3 ⊢
    obtain ⟨gn, rfl, hgn⟩ : ∃ gn : Nat, group = gn ∧ (gn = 32 ∨ gn = 64 ∨ gn = 128) := by
      rcases hg with rfl | rfl | rfl | rfl
      · exact absurd rfl hg1
      · exact ⟨32, rfl, by simp⟩
      · exact ⟨64, rfl, by simp⟩
      · exact ⟨128, rfl, by simp⟩
    obtain ⟨r, hr, e, e'⟩ := groups_pos (by omega) hi (h3 hlt)
    rw [e']
    exact gemm_works (Or.inl ⟨rfl, rfl⟩) ho hi h1 h2 hr (Or.inr ⟨gn, hgn, e⟩) half shared hs m

/-- **C155, violated.** A direct call with more than one scale group of fewer than 16 rows does not
get an error: the host divides by zero. -/
theorem C155_small_groups_violated (n k groups : Nat) (hk : k % 16 = 0) (hn : n % 64 = 0)
    (hn0 : 0 < n) (hk0 : 0 < k) (hg : 1 < groups) (hd : k % groups = 0) (hsmall : k / groups < 16)
    (half : Bool) (shared m : Nat) (hm : 0 < m) :
    gemm ⟨.u4b8, n, k, groups, 0⟩ half shared m = .error .divByZero := by
  have h16 : k / groups / 16 = 0 := Nat.div_eq_of_lt hsmall
  unfold gemm deriveGroup marlinMM groupBlocks
  dsimp only
  rw [if_neg (by omega), if_neg (by omega), if_neg (by omega)]
  simp only [Bool.false_eq_true, if_false, if_pos hg, hd, ne_eq, not_true_eq_false]
  simp [h16]
  omega

example : gemm ⟨.u4b8, 64, 128, 16, 0⟩ true 101376 1 = .error .divByZero := by decide

/-- **C155, violated.** The memory check is not conservative: for some devices a configuration
passes it although the kernel lays out more shared memory than the device has. -/
theorem C155_estimate_violated : ∃ (c : Call) (m : Nat) (l : List Launch) (x : Launch),
    c.Usual ∧ marlinMM c m = .ok l ∧ x ∈ l ∧ c.shared < kernelShared c x := by
  refine ⟨⟨.u4, true, 256, 256, .size 32, false, true, true, false, 70656⟩, 64,
    [⟨0, 64, 4, false, ⟨64, 256, 256⟩⟩], ⟨0, 64, 4, false, ⟨64, 256, 256⟩⟩,
    ⟨Or.inl rfl, by simp, by simp, rfl, rfl⟩, by decide +kernel, by simp, by decide⟩

/-! Non-vacuity: 300 rows on a 99 KiB device take five 64-row blocks' worth, in two launches. -/

def exampleCall : Call := ⟨.u4, true, 1024, 1024, .size 128, false, true, true, false, 101376⟩

example : exampleCall.Usual := ⟨Or.inl rfl, by simp [exampleCall], by simp [exampleCall], rfl, rfl⟩
example : marlinMM exampleCall 300 = .ok [⟨0, 256, 4, false, ⟨64, 256, 256⟩⟩,
    ⟨256, 44, 3, false, ⟨64, 256, 256⟩⟩] := by decide +kernel
example : ctCreate 128 256 1024 1024 = .ok ⟨.u4b8, 256, 1024, 8, 0⟩ := by decide
example : awqCreate false 128 256 1024 1024 = .ok ⟨.u4, 256, 1024, 8, 8⟩ := by decide

end Verif.Marlin
