import Verif.Kern.Par

/-!
# `store_cache`: the kernel that writes new keys and values into the cache
(`mllm-kernel/mllm_kernel/cuda/csrc/store_cache.cuh`, `.../cuda/jit/store_cache.py`)

Memory is byte addressed.  A vector store is a run of byte stores, so every real schedule of a launch is among the
interleavings considered.  Alignment faults are modelled apart (`Call.aligned`).
-/

namespace Verif.Cuda

open Verif.Kern

/-- One call (`StoreKVCacheParams`, store_cache.cuh L37-48, in bytes; `kc`, `vc` are the addresses of the caches,
`kb`, `vb` those of the sources). -/
structure Call where
  n : ℕ
  row : ℕ
  strideK : ℕ
  strideV : ℕ
  strideC : ℕ
  strideI : ℕ
  kb : ℕ
  vb : ℕ
  kc : ℕ
  vc : ℕ

/-- Vector width of `copy_kv_warp`, store_cache.cuh L78-91. -/
def vecBytes (e : ℕ) : ℕ := if e % 16 = 0 then 16 else if e % 8 = 0 then 8 else 4

/-- `warp_copy_bytes` for one lane, store_cache.cuh L64-69: vectors `lane, lane+32, …` below `nv`; `m` is the
source memory. -/
def copyLane {β : Type} (vec nv lane src dst : ℕ) (m : ℕ → β) : List (Upd β) :=
  (List.range ((nv + 31 - lane) / 32)).flatMap fun j =>
    (List.range vec).map fun b =>
      Upd.put (dst + (lane + 32 * j) * vec + b) (m (src + (lane + 32 * j) * vec + b))

/-- One thread of `store_kvcache`, store_cache.cuh L104-129: `idx` is the memory behind `indices`, `k` and `v` the
source memories. -/
def storeThread {β : Type} (c : Call) (split : ℕ) (idx : ℕ → ℕ) (k v : ℕ → β) (blk tid : ℕ) : List (Upd β) :=
  let sz := c.row / split
  let warp := blk * 4 + tid / 32
  let item := warp / split
  let sp := warp % split
  if item ≥ c.n then []
  else
    let index := idx (item * c.strideI)
    copyLane (vecBytes sz) (sz / vecBytes sz) (tid % 32)
      (item * c.strideK + sp * sz) (c.kc + (index * c.strideC + sp * sz)) k ++
    copyLane (vecBytes sz) (sz / vecBytes sz) (tid % 32)
      (item * c.strideV + sp * sz) (c.vc + (index * c.strideC + sp * sz)) v

/-- `get_kernel`, store_cache.cuh L138-147: which splits exist; anything else panics. -/
def splitOk (row split : ℕ) : Prop :=
  (split = 4 ∧ row % (4 * 128) = 0) ∨ (split = 2 ∧ row % (2 * 128) = 0) ∨ split = 1

/-- The choice of `store_cache` in Python, store_cache.py L119-125 (`num_split = 0` means automatic). -/
def pickSplit (row want : ℕ) : ℕ :=
  if want = 0 then (if row % 2048 = 0 then 4 else if row % 1024 = 0 then 2 else 1) else want

/-- `div_ceil(num_elements * num_split, kNumWarps)`, store_cache.cuh L196. -/
def storeBlocks (n split : ℕ) : ℕ := (n * split + 4 - 1) / 4

inductive StoreFail
  | rowSize | split | emptyGrid
  deriving DecidableEq

open Classical in
/-- `can_use_store_cache` / static assertion (store_cache.py L72-78, store_cache.cuh L76, L133), `get_kernel`, and the
launch (L194-198): a launch with an empty grid is a CUDA error that `RuntimeDeviceCheck` turns into a panic.
Returns the threads of the launch. -/
noncomputable def storeCache {β : Type} (c : Call) (want : ℕ) (idx : ℕ → ℕ) (k v : ℕ → β) :
    Except StoreFail (List (List (Upd β))) :=
  let split := pickSplit c.row want
  if c.row = 0 ∨ c.row % 4 ≠ 0 then .error .rowSize
  else if ¬ splitOk c.row split then .error .split
  else if storeBlocks c.n split = 0 then .error .emptyGrid
  else .ok ((List.range (storeBlocks c.n split * 128)).map fun t => storeThread c split idx k v (t / 128) (t % 128))

/-- Every vector access of the launch is aligned to its width (CUDA faults otherwise): base addresses and strides are
multiples of the width chosen in `copy_kv_warp`. -/
def Call.aligned (c : Call) (split item index sp i : ℕ) : Prop :=
  let w := vecBytes (c.row / split)
  w ∣ c.kb + (item * c.strideK + sp * (c.row / split) + i * w) ∧
  w ∣ c.vb + (item * c.strideV + sp * (c.row / split) + i * w) ∧
  w ∣ c.kc + (index * c.strideC + sp * (c.row / split) + i * w) ∧
  w ∣ c.vc + (index * c.strideC + sp * (c.row / split) + i * w)

/-! ## Lemmas -/

theorem vec_pos (e : ℕ) : 0 < vecBytes e := by unfold vecBytes; split_ifs <;> omega

theorem vec_dvd {e : ℕ} (h : e % 4 = 0) : vecBytes e ∣ e := by
  unfold vecBytes
  split_ifs with h1 h2
  · exact Nat.dvd_of_mod_eq_zero h1
  · exact Nat.dvd_of_mod_eq_zero h2
  · exact Nat.dvd_of_mod_eq_zero h

theorem mem_copyLane {β : Type} {vec nv lane src dst : ℕ} {m : ℕ → β} (hl : lane < 32) {u : Upd β} :
    u ∈ copyLane vec nv lane src dst m ↔
      ∃ i < nv, i % 32 = lane ∧ ∃ b < vec, u = Upd.put (dst + (i * vec + b)) (m (src + (i * vec + b))) := by
  unfold copyLane
  simp only [List.mem_flatMap, List.mem_range, List.mem_map]
  constructor
  · rintro ⟨j, hj, b, hb, rfl⟩
    refine ⟨lane + 32 * j, by omega, by omega, b, hb, ?_⟩
    simp only [Nat.add_assoc]
  · rintro ⟨i, hi, hm, b, hb, rfl⟩
    refine ⟨i / 32, by omega, b, hb, ?_⟩
    have : lane + 32 * (i / 32) = i := by omega
    rw [this]
    simp only [Nat.add_assoc]

/-- Every update a thread does writes one byte of one item's row. -/
theorem thread_sound {β : Type} {c : Call} {split : ℕ} {idx : ℕ → ℕ} {k v : ℕ → β} {blk tid : ℕ}
    (hs : 0 < split) (hd : split ∣ c.row) {u : Upd β} (hu : u ∈ storeThread c split idx k v blk tid) :
    ∃ item < c.n, ∃ off < c.row,
      u = Upd.put (c.kc + (idx (item * c.strideI) * c.strideC + off)) (k (item * c.strideK + off)) ∨
      u = Upd.put (c.vc + (idx (item * c.strideI) * c.strideC + off)) (v (item * c.strideV + off)) := by
  unfold storeThread at hu
  dsimp only at hu
  split_ifs at hu with hn
  · cases hu
  push Not at hn
  refine ⟨_, hn, ?_⟩
  generalize (blk * 4 + tid / 32) / split = item at *
  have hsp : (blk * 4 + tid / 32) % split < split := Nat.mod_lt _ hs
  generalize (blk * 4 + tid / 32) % split = sp at *
  obtain ⟨sz, hsz⟩ := hd
  have hrow : c.row / split = sz := by rw [hsz]; exact Nat.mul_div_cancel_left _ hs
  rw [hrow] at hu
  have hoff : ∀ i b, i < sz / vecBytes sz → b < vecBytes sz → sp * sz + (i * vecBytes sz + b) < c.row := by
    intro i b hi hb
    have h1 : (i + 1) * vecBytes sz ≤ sz :=
      le_trans (Nat.mul_le_mul_right _ hi) (Nat.div_mul_le_self _ _)
    have h2 : (sp + 1) * sz ≤ split * sz := Nat.mul_le_mul_right _ hsp
    rw [Nat.add_mul] at h1 h2
    omega
  rcases List.mem_append.mp hu with hu | hu
  · obtain ⟨i, hi, -, b, hb, rfl⟩ := (mem_copyLane (Nat.mod_lt _ (by decide))).mp hu
    exact ⟨_, hoff i b hi hb, Or.inl (by simp only [Nat.add_assoc])⟩
  · obtain ⟨i, hi, -, b, hb, rfl⟩ := (mem_copyLane (Nat.mod_lt _ (by decide))).mp hu
    exact ⟨_, hoff i b hi hb, Or.inr (by simp only [Nat.add_assoc])⟩

/-- Every byte of every item's row is written by some thread. -/
theorem thread_complete {β : Type} {c : Call} {split : ℕ} {idx : ℕ → ℕ} {k v : ℕ → β}
    (hs : 0 < split) (hd : split ∣ c.row) (h4 : c.row / split % 4 = 0) {item off : ℕ} (hi : item < c.n)
    (ho : off < c.row) :
    ∃ t < storeBlocks c.n split * 128,
      Upd.put (c.kc + (idx (item * c.strideI) * c.strideC + off)) (k (item * c.strideK + off)) ∈
        storeThread c split idx k v (t / 128) (t % 128) ∧
      Upd.put (c.vc + (idx (item * c.strideI) * c.strideC + off)) (v (item * c.strideV + off)) ∈
        storeThread c split idx k v (t / 128) (t % 128) := by
  obtain ⟨sz, hsz⟩ := hd
  have hrow : c.row / split = sz := by rw [hsz]; exact Nat.mul_div_cancel_left _ hs
  rw [hrow] at h4
  have hszp : 0 < sz := by
    rcases Nat.eq_zero_or_pos sz with h | h
    · rw [h] at hsz; omega
    · exact h
  have hspl : off / sz < split := Nat.div_lt_of_lt_mul (by rw [Nat.mul_comm, ← hsz]; exact ho)
  set sp := off / sz with hspd
  set w := vecBytes sz with hw
  have hwp : 0 < w := vec_pos _
  set i := off % sz / w with hid
  have hiv : i < sz / w := by
    obtain ⟨q, hq⟩ := vec_dvd h4
    rw [← hw] at hq
    have : off % sz < sz := Nat.mod_lt _ hszp
    rw [hq, Nat.mul_div_cancel_left _ hwp]
    refine Nat.div_lt_of_lt_mul ?_
    rw [← hq]
    exact this
  set warp := item * split + sp with hwarp
  have hwb : warp < c.n * split := by
    have : (item + 1) * split ≤ c.n * split := Nat.mul_le_mul_right _ hi
    rw [Nat.add_mul] at this
    omega
  refine ⟨warp * 32 + i % 32, ?_, ?_⟩
  · have aux : ∀ a r z : ℕ, a < z → r < 32 → a * 32 + r < (z + 4 - 1) / 4 * 128 := by intros; omega
    exact aux _ _ _ hwb (Nat.mod_lt _ (by decide))
  have e1 : (warp * 32 + i % 32) / 128 * 4 + (warp * 32 + i % 32) % 128 / 32 = warp := by omega
  have e2 : (warp * 32 + i % 32) % 128 % 32 = i % 32 := by omega
  have e3 : warp / split = item := by
    rw [hwarp, Nat.add_comm, Nat.add_mul_div_right _ _ hs, Nat.div_eq_of_lt hspl, Nat.zero_add]
  have e4 : warp % split = sp := by
    rw [hwarp, Nat.add_comm, Nat.add_mul_mod_self_right, Nat.mod_eq_of_lt hspl]
  have hoff : sp * sz + (i * w + off % sz % w) = off := by
    have a : sp * sz + off % sz = off := by rw [Nat.mul_comm]; exact Nat.div_add_mod off sz
    have b : i * w + off % sz % w = off % sz := by rw [Nat.mul_comm]; exact Nat.div_add_mod (off % sz) w
    rw [b, a]
  have hb : off % sz % w < w := Nat.mod_lt _ hwp
  have key : ∀ (src dst : ℕ) (m : ℕ → β),
      Upd.put (dst + off) (m (src + off)) ∈ copyLane w (sz / w) (i % 32) (src + sp * sz) (dst + sp * sz) m := by
    intro src dst m
    rw [mem_copyLane (Nat.mod_lt _ (by decide))]
    refine ⟨i, hiv, rfl, _, hb, ?_⟩
    rw [Nat.add_assoc, Nat.add_assoc, hoff]
  unfold storeThread
  dsimp only
  rw [e1, e2, e3, e4, hrow, if_neg (by omega), ← hw]
  constructor
  · refine List.mem_append_left _ ?_
    have := key (item * c.strideK) (c.kc + idx (item * c.strideI) * c.strideC) k
    simpa only [Nat.add_assoc] using this
  · refine List.mem_append_right _ ?_
    have := key (item * c.strideV) (c.vc + idx (item * c.strideI) * c.strideC) v
    simpa only [Nat.add_assoc] using this

/-- Stores that agree: the cell ends with the agreed value. -/
theorem run_agree {α : Type} {us : List (Upd α)} {x : ℕ} {y : α} (h : ∀ u ∈ us, u.addr = x → u = Upd.put x y)
    (he : ∃ u ∈ us, u.addr = x) (m : ℕ → α) : run us m x = y := by
  induction us generalizing m with
  | nil => obtain ⟨u, hu, -⟩ := he; cases hu
  | cons u us ih =>
    rw [run]
    by_cases hx : ∃ v ∈ us, v.addr = x
    · exact ih (fun v hv => h v (List.mem_cons_of_mem _ hv)) hx _
    · push Not at hx
      rw [run_other hx]
      obtain ⟨v, hv, hvx⟩ := he
      rcases List.mem_cons.mp hv with rfl | hv
      · have := h v List.mem_cons_self hvx
        rw [this]
        simp [Upd.put]
      · exact absurd hvx (hx v hv)

/-- Nothing gets lost in an interleaving. -/
theorem interleave_all {α : Type} {js : List (List (Upd α))} {s : List (Upd α)} (h : Interleave js s) :
    ∀ j ∈ js, ∀ u ∈ j, u ∈ s := by
  induction h with
  | done hd => intro j hj u hu; rw [hd j hj] at hu; cases hu
  | @step js i u rest s hk hs ih =>
    obtain ⟨hkl, hke⟩ := List.getElem?_eq_some_iff.mp hk
    intro j hj v hv
    obtain ⟨a, ha, rfl⟩ := List.getElem_of_mem hj
    by_cases hai : a = i
    · subst hai
      rw [hke] at hv
      rcases List.mem_cons.mp hv with rfl | hv
      · exact List.mem_cons_self
      · refine List.mem_cons_of_mem _ (ih rest ?_ v hv)
        exact List.mem_iff_getElem.mpr ⟨a, by simpa using ha, by simp⟩
    · refine List.mem_cons_of_mem _ (ih js[a] ?_ v hv)
      exact List.mem_iff_getElem.mpr ⟨a, by simpa using ha, by rw [List.getElem_set_ne (Ne.symm hai)]⟩

theorem row_unique {s r a b x y : ℕ} (hr : r ≤ s) (hx : x < r) (hy : y < r) (h : a * s + x = b * s + y) :
    a = b ∧ x = y := by
  have hs : 0 < s := by omega
  have h1 : (a * s + x) / s = a := by
    rw [Nat.add_comm, Nat.add_mul_div_right _ _ hs, Nat.div_eq_of_lt (by omega), Nat.zero_add]
  have h2 : (b * s + y) / s = b := by
    rw [Nat.add_comm, Nat.add_mul_div_right _ _ hs, Nat.div_eq_of_lt (by omega), Nat.zero_add]
  have : a = b := by rw [← h1, h, h2]
  subst this
  exact ⟨rfl, by omega⟩

end Verif.Cuda
