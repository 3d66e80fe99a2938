import Verif.Mrope.Spec
import Mathlib.Data.List.GetD

namespace Verif.Mrope

variable {R : Type} [CommRing R]

theorem getD_map_range (n : Nat) (f : Nat → R) (j : Nat) : ((List.range n).map f).getD j 0 = if j < n then f j else 0 := by
  split
  · next h => simp [h]
  · next h => simp [h]

theorem length_assign (x y : List R) (a b : Nat) : (assignStep3 x y a b).length = x.length := by simp [assignStep3]

theorem getD_assign (x y : List R) (a b j : Nat) (h : j < x.length) :
    (assignStep3 x y a b).getD j 0 = if a ≤ j ∧ j < b ∧ (j - a) % 3 = 0 then y.getD j 0 else x.getD j 0 := by
  rw [assignStep3, getD_map_range, if_pos h]

theorem getD_take (l : List R) (n j : Nat) (h : j < n) : (l.take n).getD j 0 = l.getD j 0 := by
  simp [List.getD, List.getElem?_take, h]

theorem getD_drop (l : List R) (n j : Nat) : (l.drop n).getD j 0 = l.getD (n + j) 0 := by
  simp [List.getD, List.getElem?_drop]

theorem getD_append (a b : List R) (j : Nat) : (a ++ b).getD j 0 = if j < a.length then a.getD j 0 else b.getD (j - a.length) 0 := by
  split
  · next h => rw [List.getD_append _ _ _ _ h]
  · next h => rw [List.getD_append_right _ _ _ _ (by omega)]

theorem merge_spec (inter : Bool) (sec : Nat × Nat × Nat) (half : Nat) (row : Nat → List R) (hl : ∀ i, (row i).length = half)
    (hs : inter = false → sec.1 + sec.2.1 + sec.2.2 = half) :
    ∃ y, merge inter sec row = some y ∧ y.length = half ∧ ∀ j < half, y.getD j 0 = (row (axis inter sec j)).getD j 0 := by
  cases inter
  · have hs := hs rfl
    refine ⟨(row 0).take sec.1 ++ ((row 1).drop sec.1).take sec.2.1 ++ ((row 2).drop (sec.1 + sec.2.1)).take sec.2.2,
      by simp only [merge, hl, hs, Bool.false_eq_true, if_false, if_true], by simp [hl]; omega, fun j hj => ?_⟩
    have hl0 := hl 0
    have hl1 := hl 1
    rw [getD_append, getD_append]
    simp only [List.length_append, List.length_take, List.length_drop, hl0, hl1, axis, Bool.false_eq_true, if_false]
    rw [show min sec.1 half = sec.1 by omega, show min sec.2.1 (half - sec.1) = sec.2.1 by omega]
    by_cases h1 : j < sec.1
    · rw [if_pos (by omega), if_pos h1, if_pos h1, getD_take _ _ _ h1]
    · by_cases h2 : j < sec.1 + sec.2.1
      · rw [if_pos h2, if_neg h1, if_neg h1, if_pos h2, getD_take _ _ _ (by omega), getD_drop]; congr 1; omega
      · rw [if_neg h2, if_neg h1, if_neg h2, getD_take _ _ _ (by omega), getD_drop]; congr 1; omega
  · refine ⟨_, by simp only [merge, if_true]; rfl, by simp [length_assign, hl], fun j hj => ?_⟩
    rw [getD_assign _ _ _ _ _ (by simp [length_assign, hl, hj]), getD_assign _ _ _ _ _ (by simp [hl, hj])]
    simp only [axis, if_true]
    by_cases h1 : j % 3 = 1 ∧ j < 3 * sec.2.1
    · rw [if_neg (by omega), if_pos (by omega), if_pos h1]
    · rw [if_neg h1]
      by_cases h2 : j % 3 = 2 ∧ j < 3 * sec.2.2
      · rw [if_pos (by omega), if_pos h2]
      · rw [if_neg (by omega), if_neg (by omega), if_neg h2]

theorem getD_rotateHalf (x : List R) (half d : Nat) (hx : x.length = 2 * half) (hd : d < 2 * half) :
    (rotateHalf x).getD d 0 = if d < half then - x.getD (d + half) 0 else x.getD (d - half) 0 := by
  have hh : x.length / 2 = half := by omega
  rw [rotateHalf, hh, getD_append]
  have hl : ((x.drop half).map fun v => -v).length = half := by simp; omega
  rw [hl]
  split_ifs with h
  · have e : half + d < x.length := by omega
    simp [List.getD, List.getElem?_drop, e, Nat.add_comm d half]
  · rw [getD_take _ _ _ (by omega)]

theorem reference (inter : Bool) (sec : Nat × Nat × Nat) (half : Nat) (cache : Nat → List R) (pos : Nat → Nat) (x : List R)
    (hc : ∀ i, (cache (pos i)).length = 2 * half) (hx : 2 * half ≤ x.length)
    (hs : inter = false → sec.1 + sec.2.1 + sec.2.2 = half) :
    ∃ y, applyMrope inter sec (2 * half) cache pos x = some y ∧ y.length = x.length ∧
      ∀ d < x.length, y.getD d 0 = rotated half (fun j => (cache (pos (axis inter sec j))).getD j 0)
        (fun j => (cache (pos (axis inter sec j))).getD (half + j) 0) (fun d => x.getD d 0) d := by
  have hh : 2 * half / 2 = half := by omega
  obtain ⟨c, hc1, hc2, hc3⟩ := merge_spec inter sec half (fun i => (cache (pos i)).take half) (fun i => by simp [hc]; omega) hs
  obtain ⟨s, hs1, hs2, hs3⟩ := merge_spec inter sec half (fun i => (cache (pos i)).drop half) (fun i => by simp [hc]; omega) hs
  have hr : rotate (x.take (2 * half)) (c ++ c) (s ++ s) = some ((List.range (2 * half)).map
      (rotated half (fun j => (cache (pos (axis inter sec j))).getD j 0)
        (fun j => (cache (pos (axis inter sec j))).getD (half + j) 0) (fun d => x.getD d 0))) := by
    have hl : (x.take (2 * half)).length = 2 * half := by simp; omega
    rw [rotate, if_pos (by simp [hc2, hs2]; omega), hl]
    congr 1
    apply List.map_congr_left
    intro d hd
    have hd : d < 2 * half := List.mem_range.1 hd
    rw [getD_take _ _ _ hd, getD_append, getD_append, getD_rotateHalf _ half d hl hd, hc2, hs2, rotated]
    split_ifs with h
    · rw [getD_take _ _ _ (by omega), hc3 d h, hs3 d h]
      rw [getD_take _ _ _ h, getD_drop]; ring
    · rw [getD_take _ _ _ (by omega), hc3 _ (by omega), hs3 _ (by omega)]
      rw [getD_take _ _ _ (by omega), getD_drop]
  refine ⟨_, by simp only [applyMrope, hh, hc1, hs1, hr, Option.bind_eq_bind, Option.bind_some]; rfl, ?_, fun d hd => ?_⟩
  · split_ifs with h
    · simp; omega
    · simp; omega
  · split_ifs with h
    · rw [getD_append]
      simp only [List.length_map, List.length_range]
      split_ifs with h2
      · rw [getD_map_range, if_pos h2]
      · rw [getD_drop, rotated, if_neg (by omega), if_neg h2]; congr 1; omega
    · rw [getD_map_range, if_pos (by omega)]

/-! ## The kernel -/

theorem stores_not (ws : List (Nat × R)) (m : Nat → R) (a : Nat) (h : ∀ w ∈ ws, w.1 ≠ a) : stores m ws a = m a := by
  induction ws generalizing m with
  | nil => rfl
  | cons w ws ih =>
    have e : stores m (w :: ws) = stores (Function.update m w.1 w.2) ws := rfl
    rw [e, ih _ fun v hv => h v (List.mem_cons_of_mem _ hv), Function.update_of_ne (h w List.mem_cons_self).symm]

theorem stores_mem (ws : List (Nat × R)) (m : Nat → R) (a : Nat) (v : R) (h : (a, v) ∈ ws) (hu : ∀ w ∈ ws, w.1 = a → w.2 = v) :
    stores m ws a = v := by
  induction ws generalizing m with
  | nil => cases h
  | cons w ws ih =>
    have e : stores m (w :: ws) = stores (Function.update m w.1 w.2) ws := rfl
    rw [e]
    by_cases hm : ∃ w' ∈ ws, w'.1 = a
    · obtain ⟨w', h1, h2⟩ := hm
      refine ih _ ?_ fun u hu1 hu2 => hu u (List.mem_cons_of_mem _ hu1) hu2
      have := hu w' (List.mem_cons_of_mem _ h1) h2
      rw [← h2, ← this]; exact h1
    · have hm : ∀ w' ∈ ws, w'.1 ≠ a := fun w' h1 h2 => hm ⟨w', h1, h2⟩
      rw [stores_not _ _ _ hm]
      rcases List.mem_cons.1 h with h | h
      · subst h; simp
      · exact absurd rfl (hm _ h)

theorem mem_lanes (c : Cfg) (h1 : c.n ≤ c.padN) (h2 : c.rd / 2 ≤ c.padHd / 2) (l : Nat × Nat) : l ∈ lanes c ↔ l.1 < c.n ∧ l.2 < c.rd / 2 := by
  obtain ⟨a, b⟩ := l
  simp only [lanes, List.mem_filter, List.mem_flatMap, List.mem_map, List.mem_range, Prod.mk.injEq, Bool.and_eq_true, decide_eq_true_eq]
  constructor
  · rintro ⟨-, h⟩; exact h
  · rintro h; exact ⟨⟨a, by omega, b, by omega, rfl, rfl⟩, h⟩

theorem adr_eq {hd h h' d d' : Nat} (h1 : d < hd) (h2 : d' < hd) (e : h * hd + d = h' * hd + d') : h = h' ∧ d = d' := by
  have a : (h * hd + d) / hd = h := by rw [Nat.add_comm, Nat.add_mul_div_right _ _ (by omega), Nat.div_eq_of_lt h1]; omega
  have b : (h' * hd + d') / hd = h' := by rw [Nat.add_comm, Nat.add_mul_div_right _ _ (by omega), Nat.div_eq_of_lt h2]; omega
  have : h = h' := by rw [← a, ← b, e]
  subst this
  exact ⟨rfl, by omega⟩

theorem adr_lt {hd h n d : Nat} (h1 : d < hd) (h2 : h < n) : h * hd + d < n * hd := by
  have : (h + 1) * hd ≤ n * hd := Nat.mul_le_mul_right _ h2
  rw [Nat.succ_mul] at this; omega

theorem program_get (c : Cfg) (cache : Nat → R) (P : Nat → Nat) (ps : Nat) (m : Nat → R) (pid half : Nat) (hr : c.rd = 2 * half)
    (h1 : c.n ≤ c.padN) (h2 : c.rd ≤ c.padHd) (h3 : c.rd ≤ c.hd) (h d : Nat) (hh : h < c.n) (hd : d < c.hd) :
    program c cache P ps (c.n * c.hd) m pid (pid * (c.n * c.hd) + h * c.hd + d) =
      rotated half (cosRow c cache P ps pid) (sinRow c cache P ps pid) (fun d => m (pid * (c.n * c.hd) + h * c.hd + d)) d := by
  have hl := mem_lanes c h1 (by omega)
  have hh2 : c.rd / 2 = half := by omega
  generalize hb : pid * (c.n * c.hd) = b
  simp only [program, hb]
  rw [hh2] at hl ⊢
  rw [rotated]
  split_ifs with g1 g2
  · rw [stores_not]
    · rw [stores_mem _ _ _ (m (b + h * c.hd + d) * cosRow c cache P ps pid d - m (b + h * c.hd + (d + half)) * sinRow c cache P ps pid d)]
      · refine List.mem_map.2 ⟨(h, d), (hl _).2 ⟨hh, g1⟩, ?_⟩
        simp only [Nat.add_assoc]
      · intro w hw he
        obtain ⟨⟨h', d'⟩, hm, rfl⟩ := List.mem_map.1 hw
        have hm := (hl _).1 hm
        dsimp only at hm he ⊢
        obtain ⟨rfl, rfl⟩ := adr_eq (hd := c.hd) (by omega) hd (show h' * c.hd + d' = h * c.hd + d by omega)
        simp only [Nat.add_assoc]
    · intro w hw
      obtain ⟨⟨h', d'⟩, hm, rfl⟩ := List.mem_map.1 hw
      have hm := (hl _).1 hm
      dsimp only at hm ⊢
      intro he
      obtain ⟨rfl, e⟩ := adr_eq (hd := c.hd) (by omega) hd (show h' * c.hd + (d' + half) = h * c.hd + d by omega)
      omega
  · rw [stores_mem _ _ _ (m (b + h * c.hd + d) * cosRow c cache P ps pid (d - half) + m (b + h * c.hd + (d - half)) * sinRow c cache P ps pid (d - half))]
    · refine List.mem_map.2 ⟨(h, d - half), (hl _).2 ⟨hh, by dsimp only; omega⟩, ?_⟩
      dsimp only
      have e : b + (h * c.hd + (d - half) + half) = b + h * c.hd + d := by omega
      rw [e, show b + (h * c.hd + (d - half)) = b + h * c.hd + (d - half) by omega]
    · intro w hw he
      obtain ⟨⟨h', d'⟩, hm, rfl⟩ := List.mem_map.1 hw
      have hm := (hl _).1 hm
      dsimp only at hm he ⊢
      obtain ⟨rfl, e⟩ := adr_eq (hd := c.hd) (by omega) hd (show h' * c.hd + (d' + half) = h * c.hd + d by omega)
      rw [show b + (h' * c.hd + d' + half) = b + h' * c.hd + d by omega, show b + (h' * c.hd + d') = b + h' * c.hd + (d - half) by omega,
        show d' = d - half by omega]
  · rw [stores_not, stores_not]
    · intro w hw
      obtain ⟨⟨h', d'⟩, hm, rfl⟩ := List.mem_map.1 hw
      have hm := (hl _).1 hm
      dsimp only at hm ⊢
      intro he
      obtain ⟨rfl, e⟩ := adr_eq (hd := c.hd) (by omega) hd (show h' * c.hd + d' = h * c.hd + d by omega)
      omega
    · intro w hw
      obtain ⟨⟨h', d'⟩, hm, rfl⟩ := List.mem_map.1 hw
      have hm := (hl _).1 hm
      dsimp only at hm ⊢
      intro he
      obtain ⟨rfl, e⟩ := adr_eq (hd := c.hd) (by omega) hd (show h' * c.hd + (d' + half) = h * c.hd + d by omega)
      omega

theorem program_out (c : Cfg) (cache : Nat → R) (P : Nat → Nat) (ps : Nat) (m : Nat → R) (pid half : Nat) (hr : c.rd = 2 * half)
    (h1 : c.n ≤ c.padN) (h2 : c.rd ≤ c.padHd) (h3 : c.rd ≤ c.hd) (a : Nat)
    (ha : a < pid * (c.n * c.hd) ∨ pid * (c.n * c.hd) + c.n * c.hd ≤ a) :
    program c cache P ps (c.n * c.hd) m pid a = m a := by
  have hl := mem_lanes c h1 (by omega)
  simp only [program]
  rw [stores_not, stores_not]
  · intro w hw
    obtain ⟨⟨h', d'⟩, hm, rfl⟩ := List.mem_map.1 hw
    have hm := (hl _).1 hm
    dsimp only at hm ⊢
    have := adr_lt (hd := c.hd) (show d' < c.hd by omega) hm.1
    omega
  · intro w hw
    obtain ⟨⟨h', d'⟩, hm, rfl⟩ := List.mem_map.1 hw
    have hm := (hl _).1 hm
    dsimp only at hm ⊢
    have := adr_lt (hd := c.hd) (show d' + c.rd / 2 < c.hd by omega) hm.1
    omega

theorem tok_cases {S p t a : Nat} (h : p ≠ t) (h1 : t * S ≤ a) (h2 : a < t * S + S) : a < p * S ∨ p * S + S ≤ a := by
  rcases Nat.lt_or_gt_of_ne h with h | h
  · right
    have : (p + 1) * S ≤ t * S := Nat.mul_le_mul_right _ h
    rw [Nat.succ_mul] at this; omega
  · left
    have : (t + 1) * S ≤ p * S := Nat.mul_le_mul_right _ h
    rw [Nat.succ_mul] at this; omega

theorem launch_out (c : Cfg) (cache : Nat → R) (P : Nat → Nat) (ps half : Nat) (hr : c.rd = 2 * half)
    (h1 : c.n ≤ c.padN) (h2 : c.rd ≤ c.padHd) (h3 : c.rd ≤ c.hd) (pids : List Nat) (m : Nat → R) (a : Nat)
    (ha : ∀ p ∈ pids, a < p * (c.n * c.hd) ∨ p * (c.n * c.hd) + c.n * c.hd ≤ a) : launch c cache P ps m pids a = m a := by
  induction pids generalizing m with
  | nil => rfl
  | cons p pids ih =>
    have e : launch c cache P ps m (p :: pids) = launch c cache P ps (program c cache P ps (c.n * c.hd) m p) pids := rfl
    rw [e, ih _ fun q hq => ha q (List.mem_cons_of_mem _ hq), program_out c cache P ps m p half hr h1 h2 h3 a (ha p List.mem_cons_self)]

theorem rotated_congr (half : Nat) (C S C' S' x x' : Nat → R) (d n : Nat) (hd : d < n) (hn : 2 * half ≤ n) (hx : ∀ d < n, x d = x' d)
    (hC : ∀ j < half, C j = C' j ∧ S j = S' j) : rotated half C S x d = rotated half C' S' x' d := by
  simp only [rotated]
  split_ifs with h h2
  · rw [hx d hd, hx _ (by omega), (hC d h).1, (hC d h).2]
  · rw [hx d hd, hx _ (by omega), (hC (d - half) (by omega)).1, (hC (d - half) (by omega)).2]
  · exact hx d hd

theorem launch_get (c : Cfg) (cache : Nat → R) (P : Nat → Nat) (ps half : Nat) (hr : c.rd = 2 * half)
    (h1 : c.n ≤ c.padN) (h2 : c.rd ≤ c.padHd) (h3 : c.rd ≤ c.hd) (pids : List Nat) (hp : pids.Nodup) (m : Nat → R) (t : Nat) (ht : t ∈ pids)
    (h d : Nat) (hh : h < c.n) (hd : d < c.hd) :
    launch c cache P ps m pids (t * (c.n * c.hd) + h * c.hd + d) =
      rotated half (cosRow c cache P ps t) (sinRow c cache P ps t) (fun d => m (t * (c.n * c.hd) + h * c.hd + d)) d := by
  have hlt : ∀ d < c.hd, h * c.hd + d < c.n * c.hd := fun d hd => adr_lt hd hh
  induction pids generalizing m with
  | nil => cases ht
  | cons p pids ih =>
    have e : launch c cache P ps m (p :: pids) = launch c cache P ps (program c cache P ps (c.n * c.hd) m p) pids := rfl
    rw [e]
    by_cases hpt : p = t
    · subst hpt
      rw [launch_out c cache P ps half hr h1 h2 h3, program_get c cache P ps m p half hr h1 h2 h3 h d hh hd]
      intro q hq
      have := hlt d hd
      exact tok_cases (t := p) (fun e => (List.nodup_cons.1 hp).1 (e ▸ hq)) (by omega) (by omega)
    · rw [ih (List.nodup_cons.1 hp).2 _ (by rcases List.mem_cons.1 ht with h | h; exact absurd h.symm hpt; exact h)]
      refine rotated_congr half _ _ _ _ _ _ d c.hd hd (by omega) (fun d hd => ?_) fun j _ => ⟨rfl, rfl⟩
      have := hlt d hd
      exact program_out c cache P ps m p half hr h1 h2 h3 _ (tok_cases hpt (by omega) (by omega))

theorem le_nextPow2 (n : Nat) : n ≤ nextPow2 n := Nat.le_pow_clog (by omega) n

theorem masks (c : Cfg) (half j : Nat) (hr : c.rd = 2 * half) (hj : j < half) (f : Nat → R) :
    (if tMask c j then f 0 else 0) + (if hMask c j then f 1 else 0) + (if wMask c j then f 2 else 0) = f (axis c.inter (c.st, c.sh, c.sw) j) := by
  have hh : c.rd / 2 = half := by omega
  simp only [tMask, hMask, wMask, axis, hh]
  by_cases hi : c.inter = true
  swap
  · simp only [hi, Bool.false_eq_true, if_false, Bool.and_eq_true, decide_eq_true_eq]
    by_cases g1 : j < c.st
    · rw [if_pos g1, if_neg (by omega), if_neg (by omega), if_pos g1]; ring
    · by_cases g2 : j < c.st + c.sh
      · rw [if_neg g1, if_pos (by omega), if_neg (by omega), if_neg g1, if_pos g2]; ring
      · rw [if_neg g1, if_neg (by omega), if_pos (by omega), if_neg g1, if_neg g2]; ring
  · simp only [hi, if_true, Bool.and_eq_true, Bool.not_eq_true', Bool.or_eq_false_iff, Bool.and_eq_false_iff, decide_eq_true_eq, decide_eq_false_iff_not]
    by_cases g1 : j % 3 = 1 ∧ j < 3 * c.sh
    · rw [if_neg (by omega), if_pos (by omega), if_neg (by omega), if_pos g1]; ring
    · by_cases g2 : j % 3 = 2 ∧ j < 3 * c.sw
      · rw [if_neg (by omega), if_neg (by omega), if_pos (by omega), if_neg g1, if_pos g2]; ring
      · rw [if_pos (by omega), if_neg (by omega), if_neg (by omega), if_neg g1, if_neg g2]; ring

theorem masks_flat (c : Cfg) (j : Nat) (hi : c.inter = false) (h : tMask c j = true ∨ hMask c j = true ∨ wMask c j = true) :
    j < c.st ∨ j < c.st + c.sh ∨ j < c.rd / 2 := by
  simp only [tMask, hMask, wMask, hi, Bool.false_eq_true, if_false, Bool.and_eq_true, decide_eq_true_eq] at h
  omega

theorem tMask_past (c : Cfg) (j : Nat) (hi : c.inter = true) (h : 3 * c.sh ≤ j ∧ 3 * c.sw ≤ j) : tMask c j = true := by
  simp only [tMask, hMask, wMask, hi, if_true, Bool.not_eq_true', Bool.or_eq_false_iff, Bool.and_eq_false_iff, decide_eq_false_iff_not]
  omega

theorem cosRow_eq (c : Cfg) (cache : Nat → R) (P : Nat → Nat) (ps pid half j : Nat) (hr : c.rd = 2 * half) (hj : j < half) :
    cosRow c cache P ps pid j = cache (P (axis c.inter (c.st, c.sh, c.sw) j * ps + pid) * c.rd + j) :=
  masks c half j hr hj fun i => cache (P (i * ps + pid) * c.rd + j)

theorem sinRow_eq (c : Cfg) (cache : Nat → R) (P : Nat → Nat) (ps pid half j : Nat) (hr : c.rd = 2 * half) (hj : j < half) :
    sinRow c cache P ps pid j = cache (P (axis c.inter (c.st, c.sh, c.sw) j * ps + pid) * c.rd + (half + j)) := by
  have hh : c.rd / 2 = half := by omega
  have := masks c half j hr hj fun i => cache (P (i * ps + pid) * c.rd + c.rd / 2 + j)
  rw [hh] at this
  simp only [sinRow, ld, posAt, hh]
  rw [this, Nat.add_assoc]

end Verif.Mrope
