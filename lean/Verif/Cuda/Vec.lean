import Verif.Cuda.Decode

/-!
# The vector sums of `gdn_decode` under every schedule
(`gdn_decode.cuh`: `block_reduce_bv`, L131-169, its two uses and the broadcast between them, L272-315)

One entry `bv` of the vectors is followed; the entries use separate cells.  `reduce_buf[w * BV + bv]` is `rb w`,
`sv_broadcast[bv]`, which is both the broadcast buffer of the sums and the buffer of `v_delta`, is `bc`.
-/

namespace Verif.Cuda

inductive VIns
  /-- `if (lane_id == 0) reduce_buf[warp_id * BV + bv] = warp_reduce_sum(partial[bv])`, L141-148, first use. -/
  | share1
  /-- The same, second use (L306-315): what is shared depends on the `v_delta` the warp has read. -/
  | share2
  | sync
  /-- Thread `bv` of warp 0: `for w: sum += reduce_buf[w * BV + bv]; broadcast_buf[bv] = sum`, L151-160. -/
  | fold
  /-- `out[bv] = broadcast_buf[bv]`, L163-167, first use (`delta`). -/
  | load1
  /-- Thread `bv` of warp 0: `sv_broadcast[bv] = (my_v - delta[bv]) * beta`, L285-291. -/
  | put
  /-- `v_delta[bv] = sv_broadcast[bv]`, L294-298. -/
  | loadV
  /-- `out_vals[bv] = broadcast_buf[bv]`, L163-167, second use. -/
  | load2
  deriving DecidableEq

/-- L272-315. -/
def vecProg : List VIns :=
  [.share1, .sync, .fold, .sync, .load1, .put, .sync, .loadV, .share2, .sync, .fold, .sync, .load2]

structure VCfg where
  pc : ℕ → ℕ
  rb : ℕ → ℝ
  bc : ℝ
  delta : ℕ → ℝ
  vd : ℕ → ℝ
  out : ℕ → ℝ

/-- What thread `t` shares first; `v_delta` from `delta`; what thread `t` shares second given its `v_delta`. -/
structure VVal where
  one : ℕ → ℝ
  put : ℝ → ℝ
  two : ℝ → ℕ → ℝ

/-- One warp advances. -/
inductive VStep (W : ℕ) (val : VVal) : VCfg → VCfg → Prop
  | share1 {c : VCfg} {w : ℕ} : w < W → vecProg[c.pc w]? = some .share1 →
      VStep W val c { c with pc := Function.update c.pc w (c.pc w + 1), rb := Function.update c.rb w (warpSum (fun l => val.one (w * 32 + l)) 0) }
  | share2 {c : VCfg} {w : ℕ} : w < W → vecProg[c.pc w]? = some .share2 →
      VStep W val c { c with pc := Function.update c.pc w (c.pc w + 1), rb := Function.update c.rb w (warpSum (fun l => val.two (c.vd w) (w * 32 + l)) 0) }
  | sync {c : VCfg} {w : ℕ} : w < W → vecProg[c.pc w]? = some .sync → (∀ v < W, c.pc w ≤ c.pc v) →
      VStep W val c { c with pc := Function.update c.pc w (c.pc w + 1) }
  | fold {c : VCfg} : 0 < W → vecProg[c.pc 0]? = some .fold →
      VStep W val c { c with pc := Function.update c.pc 0 (c.pc 0 + 1), bc := ∑ w ∈ Finset.range W, c.rb w }
  | foldSkip {c : VCfg} {w : ℕ} : w < W → w ≠ 0 → vecProg[c.pc w]? = some .fold →
      VStep W val c { c with pc := Function.update c.pc w (c.pc w + 1) }
  | load1 {c : VCfg} {w : ℕ} : w < W → vecProg[c.pc w]? = some .load1 →
      VStep W val c { c with pc := Function.update c.pc w (c.pc w + 1), delta := Function.update c.delta w c.bc }
  | put {c : VCfg} : 0 < W → vecProg[c.pc 0]? = some .put →
      VStep W val c { c with pc := Function.update c.pc 0 (c.pc 0 + 1), bc := val.put (c.delta 0) }
  | putSkip {c : VCfg} {w : ℕ} : w < W → w ≠ 0 → vecProg[c.pc w]? = some .put →
      VStep W val c { c with pc := Function.update c.pc w (c.pc w + 1) }
  | loadV {c : VCfg} {w : ℕ} : w < W → vecProg[c.pc w]? = some .loadV →
      VStep W val c { c with pc := Function.update c.pc w (c.pc w + 1), vd := Function.update c.vd w c.bc }
  | load2 {c : VCfg} {w : ℕ} : w < W → vecProg[c.pc w]? = some .load2 →
      VStep W val c { c with pc := Function.update c.pc w (c.pc w + 1), out := Function.update c.out w c.bc }

inductive VReach (W : ℕ) (val : VVal) : VCfg → Prop
  | start {c : VCfg} : (∀ w, c.pc w = 0) → VReach W val c
  | step {c c' : VCfg} : VReach W val c → VStep W val c c' → VReach W val c'

/-! ## The invariant -/

def VVal.p1 (val : VVal) (w : ℕ) : ℝ := ∑ l ∈ Finset.range 32, val.one (w * 32 + l)
def VVal.d1 (W : ℕ) (val : VVal) : ℝ := ∑ w ∈ Finset.range W, val.p1 w
def VVal.dv (W : ℕ) (val : VVal) : ℝ := val.put (val.d1 W)
def VVal.p2 (W : ℕ) (val : VVal) (w : ℕ) : ℝ := ∑ l ∈ Finset.range 32, val.two (val.dv W) (w * 32 + l)
def VVal.d2 (W : ℕ) (val : VVal) : ℝ := ∑ w ∈ Finset.range W, val.p2 W w

structure VInv (W : ℕ) (val : VVal) (pc : ℕ → ℕ) (rb : ℕ → ℝ) (bc : ℝ) (delta vd out : ℕ → ℝ) : Prop where
  s2 : ∀ w < W, 2 ≤ pc w → ∀ v < W, 1 ≤ pc v
  s4 : ∀ w < W, 4 ≤ pc w → ∀ v < W, 3 ≤ pc v
  s7 : ∀ w < W, 7 ≤ pc w → ∀ v < W, 6 ≤ pc v
  s10 : ∀ w < W, 10 ≤ pc w → ∀ v < W, 9 ≤ pc v
  s12 : ∀ w < W, 12 ≤ pc w → ∀ v < W, 11 ≤ pc v
  r1 : ∀ v < W, 1 ≤ pc v → pc v ≤ 8 → rb v = val.p1 v
  r2 : ∀ v < W, 9 ≤ pc v → rb v = val.p2 W v
  b1 : 3 ≤ pc 0 → pc 0 ≤ 5 → bc = val.d1 W
  b2 : 6 ≤ pc 0 → pc 0 ≤ 10 → bc = val.dv W
  b3 : 11 ≤ pc 0 → bc = val.d2 W
  g1 : 5 ≤ pc 0 → delta 0 = val.d1 W
  g2 : ∀ v < W, 8 ≤ pc v → vd v = val.dv W
  g3 : ∀ v < W, 13 ≤ pc v → out v = val.d2 W

theorem vec_cases {p : ℕ} {x : VIns} (h : vecProg[p]? = some x) :
    (p = 0 ∧ x = .share1) ∨ (p = 1 ∧ x = .sync) ∨ (p = 2 ∧ x = .fold) ∨ (p = 3 ∧ x = .sync) ∨ (p = 4 ∧ x = .load1) ∨
    (p = 5 ∧ x = .put) ∨ (p = 6 ∧ x = .sync) ∨ (p = 7 ∧ x = .loadV) ∨ (p = 8 ∧ x = .share2) ∨ (p = 9 ∧ x = .sync) ∨
    (p = 10 ∧ x = .fold) ∨ (p = 11 ∧ x = .sync) ∨ (p = 12 ∧ x = .load2) := by
  have hp : p < 13 := (List.getElem?_eq_some_iff.mp h).1
  interval_cases p <;> simp [vecProg] at h <;> subst h <;> simp

theorem vec_share1 {x : ℕ} (h : vecProg[x]? = some .share1) : x = 0 := by
  rcases vec_cases h with ⟨e, c⟩ | ⟨e, c⟩ | ⟨e, c⟩ | ⟨e, c⟩ | ⟨e, c⟩ | ⟨e, c⟩ | ⟨e, c⟩ | ⟨e, c⟩ | ⟨e, c⟩ | ⟨e, c⟩ | ⟨e, c⟩ |
    ⟨e, c⟩ | ⟨e, c⟩ <;> first | exact e | cases c
theorem vec_share2 {x : ℕ} (h : vecProg[x]? = some .share2) : x = 8 := by
  rcases vec_cases h with ⟨e, c⟩ | ⟨e, c⟩ | ⟨e, c⟩ | ⟨e, c⟩ | ⟨e, c⟩ | ⟨e, c⟩ | ⟨e, c⟩ | ⟨e, c⟩ | ⟨e, c⟩ | ⟨e, c⟩ | ⟨e, c⟩ |
    ⟨e, c⟩ | ⟨e, c⟩ <;> first | exact e | cases c
theorem vec_load1 {x : ℕ} (h : vecProg[x]? = some .load1) : x = 4 := by
  rcases vec_cases h with ⟨e, c⟩ | ⟨e, c⟩ | ⟨e, c⟩ | ⟨e, c⟩ | ⟨e, c⟩ | ⟨e, c⟩ | ⟨e, c⟩ | ⟨e, c⟩ | ⟨e, c⟩ | ⟨e, c⟩ | ⟨e, c⟩ |
    ⟨e, c⟩ | ⟨e, c⟩ <;> first | exact e | cases c
theorem vec_put {x : ℕ} (h : vecProg[x]? = some .put) : x = 5 := by
  rcases vec_cases h with ⟨e, c⟩ | ⟨e, c⟩ | ⟨e, c⟩ | ⟨e, c⟩ | ⟨e, c⟩ | ⟨e, c⟩ | ⟨e, c⟩ | ⟨e, c⟩ | ⟨e, c⟩ | ⟨e, c⟩ | ⟨e, c⟩ |
    ⟨e, c⟩ | ⟨e, c⟩ <;> first | exact e | cases c
theorem vec_loadV {x : ℕ} (h : vecProg[x]? = some .loadV) : x = 7 := by
  rcases vec_cases h with ⟨e, c⟩ | ⟨e, c⟩ | ⟨e, c⟩ | ⟨e, c⟩ | ⟨e, c⟩ | ⟨e, c⟩ | ⟨e, c⟩ | ⟨e, c⟩ | ⟨e, c⟩ | ⟨e, c⟩ | ⟨e, c⟩ |
    ⟨e, c⟩ | ⟨e, c⟩ <;> first | exact e | cases c
theorem vec_load2 {x : ℕ} (h : vecProg[x]? = some .load2) : x = 12 := by
  rcases vec_cases h with ⟨e, c⟩ | ⟨e, c⟩ | ⟨e, c⟩ | ⟨e, c⟩ | ⟨e, c⟩ | ⟨e, c⟩ | ⟨e, c⟩ | ⟨e, c⟩ | ⟨e, c⟩ | ⟨e, c⟩ | ⟨e, c⟩ |
    ⟨e, c⟩ | ⟨e, c⟩ <;> first | exact e | cases c
theorem vec_fold {x : ℕ} (h : vecProg[x]? = some .fold) : x = 2 ∨ x = 10 := by
  rcases vec_cases h with ⟨e, c⟩ | ⟨e, c⟩ | ⟨e, c⟩ | ⟨e, c⟩ | ⟨e, c⟩ | ⟨e, c⟩ | ⟨e, c⟩ | ⟨e, c⟩ | ⟨e, c⟩ | ⟨e, c⟩ | ⟨e, c⟩ |
    ⟨e, c⟩ | ⟨e, c⟩ <;> first | exact Or.inl e | exact Or.inr e | cases c
theorem vec_sync {x : ℕ} (h : vecProg[x]? = some .sync) : x = 1 ∨ x = 3 ∨ x = 6 ∨ x = 9 ∨ x = 11 := by
  rcases vec_cases h with ⟨e, c⟩ | ⟨e, c⟩ | ⟨e, c⟩ | ⟨e, c⟩ | ⟨e, c⟩ | ⟨e, c⟩ | ⟨e, c⟩ | ⟨e, c⟩ | ⟨e, c⟩ | ⟨e, c⟩ | ⟨e, c⟩ |
    ⟨e, c⟩ | ⟨e, c⟩ <;> first | omega | cases c

section
variable {W : ℕ} {val : VVal} {pc : ℕ → ℕ} {rb : ℕ → ℝ} {bc : ℝ} {delta vd out : ℕ → ℝ} {w : ℕ}

theorem vinv_share1 (h : VInv W val pc rb bc delta vd out) (hw : w < W) (hp : pc w = 0) :
    VInv W val (Function.update pc w 1) (Function.update rb w (val.p1 w)) bc delta vd out := by
  obtain ⟨s2, s4, s7, s10, s12, r1, r2, b1, b2, b3, g1, g2, g3⟩ := h
  constructor <;> simp only [Function.update_apply] <;> grind

theorem vinv_share2 (h : VInv W val pc rb bc delta vd out) (hw : w < W) (hp : pc w = 8) :
    VInv W val (Function.update pc w 9) (Function.update rb w (val.p2 W w)) bc delta vd out := by
  obtain ⟨s2, s4, s7, s10, s12, r1, r2, b1, b2, b3, g1, g2, g3⟩ := h
  constructor <;> simp only [Function.update_apply] <;> grind

theorem vinv_sync (h : VInv W val pc rb bc delta vd out) (hw : w < W)
    (hp : pc w = 1 ∨ pc w = 3 ∨ pc w = 6 ∨ pc w = 9 ∨ pc w = 11) (hall : ∀ v < W, pc w ≤ pc v) :
    VInv W val (Function.update pc w (pc w + 1)) rb bc delta vd out := by
  obtain ⟨s2, s4, s7, s10, s12, r1, r2, b1, b2, b3, g1, g2, g3⟩ := h
  have h0 := hall 0 (by omega)
  rcases hp with e | e | e | e | e <;> rw [e] at hall h0 ⊢ <;>
  constructor <;> simp only [Function.update_apply] <;> grind

theorem vinv_skip (h : VInv W val pc rb bc delta vd out) (hw : w < W) (h0 : w ≠ 0)
    (hp : pc w = 2 ∨ pc w = 10 ∨ pc w = 5) :
    VInv W val (Function.update pc w (pc w + 1)) rb bc delta vd out := by
  obtain ⟨s2, s4, s7, s10, s12, r1, r2, b1, b2, b3, g1, g2, g3⟩ := h
  rcases hp with e | e | e <;> rw [e] <;>
  constructor <;> simp only [Function.update_apply] <;> grind

theorem vinv_fold1 (h : VInv W val pc rb bc delta vd out) (h0 : 0 < W) (hp : pc 0 = 2) :
    VInv W val (Function.update pc 0 3) rb (∑ w ∈ Finset.range W, rb w) delta vd out := by
  obtain ⟨s2, s4, s7, s10, s12, r1, r2, b1, b2, b3, g1, g2, g3⟩ := h
  have hlt : ∀ v < W, pc v < 4 := by
    intro v hv
    by_contra hc
    have := s4 v hv (by omega) 0 h0
    omega
  have hs : ∑ w ∈ Finset.range W, rb w = val.d1 W :=
    Finset.sum_congr rfl fun v hv => by
      have hv := Finset.mem_range.mp hv
      have := hlt v hv
      exact r1 v hv (s2 0 h0 (by omega) v hv) (by omega)
  rw [hs]
  constructor <;> simp only [Function.update_apply] <;> grind

theorem vinv_fold2 (h : VInv W val pc rb bc delta vd out) (h0 : 0 < W) (hp : pc 0 = 10) :
    VInv W val (Function.update pc 0 11) rb (∑ w ∈ Finset.range W, rb w) delta vd out := by
  obtain ⟨s2, s4, s7, s10, s12, r1, r2, b1, b2, b3, g1, g2, g3⟩ := h
  have hlt : ∀ v < W, pc v < 12 := by
    intro v hv
    by_contra hc
    have := s12 v hv (by omega) 0 h0
    omega
  have hs : ∑ w ∈ Finset.range W, rb w = val.d2 W :=
    Finset.sum_congr rfl fun v hv => by
      have hv := Finset.mem_range.mp hv
      exact r2 v hv (s10 0 h0 (by omega) v hv)
  rw [hs]
  constructor <;> simp only [Function.update_apply] <;> grind

theorem vinv_load1 (h : VInv W val pc rb bc delta vd out) (hw : w < W) (hp : pc w = 4) :
    VInv W val (Function.update pc w 5) rb bc (Function.update delta w bc) vd out := by
  obtain ⟨s2, s4, s7, s10, s12, r1, r2, b1, b2, b3, g1, g2, g3⟩ := h
  constructor <;> simp only [Function.update_apply] <;> grind

theorem vinv_put (h : VInv W val pc rb bc delta vd out) (h0 : 0 < W) (hp : pc 0 = 5) :
    VInv W val (Function.update pc 0 6) rb (val.put (delta 0)) delta vd out := by
  obtain ⟨s2, s4, s7, s10, s12, r1, r2, b1, b2, b3, g1, g2, g3⟩ := h
  have hs : val.put (delta 0) = val.dv W := by rw [g1 (by omega)]; rfl
  rw [hs]
  constructor <;> simp only [Function.update_apply] <;> grind

theorem vinv_loadV (h : VInv W val pc rb bc delta vd out) (hw : w < W) (hp : pc w = 7) :
    VInv W val (Function.update pc w 8) rb bc delta (Function.update vd w bc) out := by
  obtain ⟨s2, s4, s7, s10, s12, r1, r2, b1, b2, b3, g1, g2, g3⟩ := h
  have h0 : 0 < W := by omega
  have h6 := s7 w hw (by omega) 0 h0
  have hlt : pc 0 < 11 := by
    by_contra hc
    have := s10 0 h0 (by omega) w hw
    omega
  have hb := b2 h6 (by omega)
  constructor <;> simp only [Function.update_apply] <;> grind

theorem vinv_load2 (h : VInv W val pc rb bc delta vd out) (hw : w < W) (hp : pc w = 12) :
    VInv W val (Function.update pc w 13) rb bc delta vd (Function.update out w bc) := by
  obtain ⟨s2, s4, s7, s10, s12, r1, r2, b1, b2, b3, g1, g2, g3⟩ := h
  have h0 : 0 < W := by omega
  have hb := b3 (s12 w hw (by omega) 0 h0)
  constructor <;> simp only [Function.update_apply] <;> grind

end

theorem vinv_reach {W : ℕ} {val : VVal} {c : VCfg} (h : VReach W val c) :
    VInv W val c.pc c.rb c.bc c.delta c.vd c.out := by
  induction h with
  | start hz => constructor <;> intros <;> simp only [hz] at * <;> omega
  | @step c c' hr hs ih =>
    cases hs with
    | @share1 w hw hx =>
      have e := vec_share1 hx
      simp only [e, warpSum_eq _ 0 (by decide)]
      exact vinv_share1 ih hw e
    | @share2 w hw hx =>
      have e := vec_share2 hx
      simp only [e, warpSum_eq _ 0 (by decide), ih.g2 w hw (by omega)]
      exact vinv_share2 ih hw e
    | sync hw hx hall => exact vinv_sync ih hw (vec_sync hx) hall
    | fold h0 hx =>
      rcases vec_fold hx with e | e
      · simp only [e]; exact vinv_fold1 ih h0 e
      · simp only [e]; exact vinv_fold2 ih h0 e
    | foldSkip hw h0 hx => exact vinv_skip ih hw h0 (by rcases vec_fold hx with e | e <;> omega)
    | load1 hw hx => have e := vec_load1 hx; simp only [e]; exact vinv_load1 ih hw e
    | put h0 hx => have e := vec_put hx; simp only [e]; exact vinv_put ih h0 e
    | putSkip hw h0 hx => exact vinv_skip ih hw h0 (by have e := vec_put hx; omega)
    | loadV hw hx => have e := vec_loadV hx; simp only [e]; exact vinv_loadV ih hw e
    | load2 hw hx => have e := vec_load2 hx; simp only [e]; exact vinv_load2 ih hw e

end Verif.Cuda
