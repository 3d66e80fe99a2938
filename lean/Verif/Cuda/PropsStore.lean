import Verif.Cuda.Store

/-! # C192: writing new keys and values into the cache -/

namespace Verif.Cuda

open Verif.Kern

/-- Specification: the bytes at `base + slot·stride + off` for every item hold the item's source row, in both caches,
and every other byte keeps what it had. -/
structure Stored {β : Type} (c : Call) (slot : ℕ → ℕ) (k v before after : ℕ → β) : Prop where
  keys : ∀ i < c.n, ∀ b < c.row, after (c.kc + (slot i * c.strideC + b)) = k (i * c.strideK + b)
  values : ∀ i < c.n, ∀ b < c.row, after (c.vc + (slot i * c.strideC + b)) = v (i * c.strideV + b)
  rest : ∀ x, (∀ i < c.n, ∀ b < c.row, x ≠ c.kc + (slot i * c.strideC + b) ∧ x ≠ c.vc + (slot i * c.strideC + b)) →
    after x = before x

theorem split_facts {row split : ℕ} (h4 : row % 4 = 0) (h : splitOk row split) :
    0 < split ∧ split ∣ row ∧ row / split % 4 = 0 := by
  rcases h with ⟨rfl, h⟩ | ⟨rfl, h⟩ | rfl
  · exact ⟨by decide, by omega, by omega⟩
  · exact ⟨by decide, by omega, by omega⟩
  · exact ⟨by decide, one_dvd _, by simpa using h4⟩

/-- C192.  Any accepted call, any schedule of its threads: with distinct slots inside the cache and caches that do
not overlap, exactly the rows of the given slots change, to the given keys and values. -/
theorem C192_rows {β : Type} (c : Call) (want : ℕ) (idx : ℕ → ℕ) (k v : ℕ → β) (slots : ℕ)
    (js : List (List (Upd β))) (hok : storeCache c want idx k v = .ok js)
    (hin : ∀ i < c.n, idx (i * c.strideI) < slots)
    (hinj : ∀ i < c.n, ∀ j < c.n, idx (i * c.strideI) = idx (j * c.strideI) → i = j)
    (hst : c.row ≤ c.strideC)
    (hdis : c.kc + slots * c.strideC ≤ c.vc ∨ c.vc + slots * c.strideC ≤ c.kc)
    (s : List (Upd β)) (hs : Interleave js s) (before : ℕ → β) :
    Stored c (fun i => idx (i * c.strideI)) k v before (run s before) := by
  unfold storeCache at hok
  dsimp only at hok
  split_ifs at hok with h1 h2 h3
  push Not at h1
  obtain ⟨hsp, hdv, hsz⟩ := split_facts h1.2 (by simpa using h2)
  generalize pickSplit c.row want = split at *
  injection hok with hok
  -- every update of the schedule is a byte of some item
  have sound : ∀ u ∈ s, ∃ i < c.n, ∃ b < c.row,
      u = Upd.put (c.kc + (idx (i * c.strideI) * c.strideC + b)) (k (i * c.strideK + b)) ∨
      u = Upd.put (c.vc + (idx (i * c.strideI) * c.strideC + b)) (v (i * c.strideV + b)) := by
    intro u hu
    obtain ⟨j, hj, huj⟩ := hs.mem u hu
    rw [← hok] at hj
    obtain ⟨t, -, rfl⟩ := List.mem_map.mp hj
    exact thread_sound hsp hdv huj
  have complete : ∀ i < c.n, ∀ b < c.row,
      Upd.put (c.kc + (idx (i * c.strideI) * c.strideC + b)) (k (i * c.strideK + b)) ∈ s ∧
      Upd.put (c.vc + (idx (i * c.strideI) * c.strideC + b)) (v (i * c.strideV + b)) ∈ s := by
    intro i hi b hb
    obtain ⟨t, ht, hk, hv⟩ := thread_complete (idx := idx) (k := k) (v := v) hsp hdv hsz hi hb
    have hj : storeThread c split idx k v (t / 128) (t % 128) ∈ js := by
      rw [← hok]; exact List.mem_map.mpr ⟨t, List.mem_range.mpr ht, rfl⟩
    exact ⟨interleave_all hs _ hj _ hk, interleave_all hs _ hj _ hv⟩
  have below : ∀ i < c.n, ∀ b < c.row, idx (i * c.strideI) * c.strideC + b < slots * c.strideC := by
    intro i hi b hb
    have : (idx (i * c.strideI) + 1) * c.strideC ≤ slots * c.strideC := Nat.mul_le_mul_right _ (hin i hi)
    rw [Nat.add_mul] at this
    omega
  refine ⟨?_, ?_, ?_⟩
  · intro i hi b hb
    refine run_agree ?_ ⟨_, (complete i hi b hb).1, rfl⟩ _
    intro u hu hux
    obtain ⟨i', hi', b', hb', rfl | rfl⟩ := sound u hu
    · simp only [Upd.put] at hux
      obtain ⟨e1, e2⟩ := row_unique hst hb' hb (Nat.add_left_cancel hux)
      have := hinj i' hi' i hi e1
      subst this; subst e2; rfl
    · exfalso
      simp only [Upd.put] at hux
      have a := below i hi b hb
      have a' := below i' hi' b' hb'
      omega
  · intro i hi b hb
    refine run_agree ?_ ⟨_, (complete i hi b hb).2, rfl⟩ _
    intro u hu hux
    obtain ⟨i', hi', b', hb', rfl | rfl⟩ := sound u hu
    · exfalso
      simp only [Upd.put] at hux
      have a := below i hi b hb
      have a' := below i' hi' b' hb'
      omega
    · simp only [Upd.put] at hux
      obtain ⟨e1, e2⟩ := row_unique hst hb' hb (Nat.add_left_cancel hux)
      have := hinj i' hi' i hi e1
      subst this; subst e2; rfl
  · intro x hx
    refine run_other ?_ _
    intro u hu hux
    obtain ⟨i, hi, b, hb, rfl | rfl⟩ := sound u hu
    · exact (hx i hi b hb).1 hux.symm
    · exact (hx i hi b hb).2 hux.symm

/-- C192.  With the automatic choice of warps every non-empty batch of rows of a multiple of four bytes is
accepted. -/
theorem C192_auto {β : Type} (c : Call) (idx : ℕ → ℕ) (k v : ℕ → β) (hn : 0 < c.n) (hr : 0 < c.row)
    (h4 : c.row % 4 = 0) : ∃ js, storeCache c 0 idx k v = .ok js := by
  unfold storeCache
  dsimp only
  have hs : splitOk c.row (pickSplit c.row 0) := by
    unfold splitOk pickSplit
    simp only [if_true]
    split_ifs with a b
    · left; exact ⟨rfl, by omega⟩
    · right; left; exact ⟨rfl, by omega⟩
    · right; right; rfl
  have hb : storeBlocks c.n (pickSplit c.row 0) ≠ 0 := by
    have := (split_facts h4 hs).1
    unfold storeBlocks
    have : 0 < c.n * pickSplit c.row 0 := Nat.mul_pos hn this
    omega
  rw [if_neg (by omega), if_neg (by simpa using hs), if_neg hb]
  exact ⟨_, rfl⟩

/-- C192 fails for an empty batch: no call with no rows is accepted, while indexing with no rows stores nothing. -/
theorem C192_empty_violated {β : Type} (c : Call) (want : ℕ) (idx : ℕ → ℕ) (k v : ℕ → β) (hn : c.n = 0) :
    ∃ e, storeCache c want idx k v = .error e := by
  unfold storeCache
  dsimp only
  have hz : storeBlocks c.n (pickSplit c.row want) = 0 := by simp [storeBlocks, hn]
  rw [if_pos hz]
  by_cases a : c.row = 0 ∨ c.row % 4 ≠ 0
  · rw [if_pos a]; exact ⟨_, rfl⟩
  · rw [if_neg a]
    by_cases b : ¬ splitOk c.row (pickSplit c.row want)
    · rw [if_pos b]; exact ⟨_, rfl⟩
    · rw [if_neg b]; exact ⟨_, rfl⟩

/-- C192.  When bases and strides are multiples of the vector width every access is aligned. -/
theorem C192_aligned (c : Call) (split : ℕ) (hs : splitOk c.row split) (h4 : c.row % 4 = 0)
    (hb : vecBytes (c.row / split) ∣ c.kb ∧ vecBytes (c.row / split) ∣ c.vb ∧ vecBytes (c.row / split) ∣ c.kc ∧
      vecBytes (c.row / split) ∣ c.vc)
    (hst : vecBytes (c.row / split) ∣ c.strideK ∧ vecBytes (c.row / split) ∣ c.strideV ∧
      vecBytes (c.row / split) ∣ c.strideC) (item index sp i : ℕ) : c.aligned split item index sp i := by
  have hd := vec_dvd (split_facts h4 hs).2.2
  unfold Call.aligned
  have key : ∀ a t st, vecBytes (c.row / split) ∣ a → vecBytes (c.row / split) ∣ st →
      vecBytes (c.row / split) ∣ a + (t * st + sp * (c.row / split) + i * vecBytes (c.row / split)) := fun a t st ha hst =>
    dvd_add ha (dvd_add (dvd_add (hst.mul_left _) (hd.mul_left _)) (Dvd.intro_left _ rfl))
  exact ⟨key _ _ _ hb.1 hst.1, key _ _ _ hb.2.1 hst.2.1, key _ _ _ hb.2.2.1 hst.2.2,
    key _ _ _ hb.2.2.2 hst.2.2⟩

/-- C192 fails without that: rows of 16 bytes that lie 18 bytes apart (eight halves in rows of nine) pass every
check, yet the second row is read at a misaligned address. -/
theorem C192_aligned_violated :
    ∃ c : Call, c.row = 16 ∧ c.row ≤ c.strideK ∧ c.row ≤ c.strideC ∧ c.kb % 16 = 0 ∧
      (∃ js, storeCache c 0 (fun i => i) (fun i => i) (fun i => i) = .ok js) ∧ ¬ c.aligned 1 1 1 0 0 := by
  refine ⟨⟨2, 16, 18, 16, 16, 1, 0, 0, 0, 1024⟩, rfl, by decide, by decide, rfl, ?_, ?_⟩
  · exact C192_auto _ _ _ _ (by decide) (by decide) (by decide)
  · unfold Call.aligned; decide

/-- The hypotheses of `C192_rows` hold of three rows of 4096 bytes stored with four warps each. -/
example : ∃ (c : Call) (js : List (List (Upd ℕ))) (s : List (Upd ℕ)), c.n = 3 ∧ c.row = 4096 ∧
    storeCache c 0 (fun i => 7 - i) id (fun x => x + 1) = .ok js ∧ Interleave js s ∧
    Stored c (fun i => 7 - i) id (fun x => x + 1) (fun _ => 0) (run s fun _ => 0) := by
  obtain ⟨js, h⟩ := C192_auto (⟨3, 4096, 4096, 4096, 4096, 1, 0, 0, 0, 100000⟩ : Call) (fun i => 7 - i) id
    (fun x => x + 1) (by decide) (by decide) (by decide)
  refine ⟨_, js, js.flatten, rfl, rfl, h, Interleave.seq _, ?_⟩
  have := C192_rows _ 0 (fun i => 7 - i) id (fun x => x + 1) 8 js h (by intro i _; simp; omega)
    (by intro i hi j hj e; simp at hi hj e; omega) (by decide) (Or.inl (by decide)) _ (Interleave.seq _) (fun _ => 0)
  simpa using this

end Verif.Cuda
