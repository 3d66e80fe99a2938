import Verif.Slice.Lemmas

/-!
# C160: an image becomes slices and pixel values without loss
-/

namespace Verif.Slice

open Verif.Aot (Mem copy)

/-- **C160.** The grid that is chosen has between 2 and `max_slice_nums` cells, at most one more or less
than the area asks for, and no admissible grid has a smaller error. -/
theorem C160_grid {maxS area : Nat} {err : Nat × Nat → Int} {never : Bool} {g : Nat × Nat}
    (h : slicedGrid maxS area err never = some g) :
    0 < g.1 ∧ 0 < g.2 ∧ 2 ≤ g.1 * g.2 ∧ g.1 * g.2 ≤ maxS ∧
      min area maxS ≤ g.1 * g.2 + 1 ∧ g.1 * g.2 ≤ min area maxS + 1 ∧
      ∀ g' : Nat × Nat, 0 < g'.1 → 2 ≤ g'.1 * g'.2 → g'.1 * g'.2 ≤ maxS →
        min area maxS ≤ g'.1 * g'.2 + 1 → g'.1 * g'.2 ≤ min area maxS + 1 → err g ≤ err g' := by
  unfold slicedGrid at h
  dsimp only at h
  split_ifs at h with hc
  push Not at hc
  cases h
  obtain ⟨b', h1, h2, h3, h4, -⟩ := pick_spec err (candGrids maxS (min area maxS)) (1, 1) none (Or.inl rfl)
  rw [h1]
  have hne : candGrids maxS (min area maxS) ≠ [] := by
    have : ((1 : Nat), min area maxS) ∈ candGrids maxS (min area maxS) :=
      mem_candGrids.2 ⟨Nat.one_pos, by show 1 < 1 * _; omega, by show 1 * _ ≤ _; omega, Or.inr (Or.inl (by show 1 * _ = _; omega))⟩
    intro hn; rw [hn] at this; cases this
  obtain ⟨a1, a2, a3, a4⟩ := mem_candGrids.1 (h3 hne rfl)
  have hpos : 0 < b'.2 := by
    rcases Nat.eq_zero_or_pos b'.2 with h | h
    · rw [h] at a2; omega
    · exact h
  refine ⟨a1, hpos, a2, a3, by show _ ≤ b'.1 * b'.2 + 1; omega, by show b'.1 * b'.2 ≤ _; omega, ?_⟩
  intro g' k1 k2 k3 k4 k5
  exact h4 g' (mem_candGrids.2 ⟨k1, by omega, k3, by omega⟩)

/-- A side that the vision model can take: a positive multiple of the patch size. -/
def Side (ps n : Nat) : Prop := ps ∣ n ∧ ps ≤ n

theorem ensureDivide_side (q : Int) (ps : Nat) : Side ps (ensureDivide q ps) := by
  unfold ensureDivide Side
  refine ⟨?_, Nat.le_max_right _ _⟩
  rcases le_total (q * ps).toNat ps with h | h
  · rw [Nat.max_eq_right h]
  · rw [Nat.max_eq_left h]
    rcases le_total q 0 with hq | hq
    · have : (q * ps).toNat = 0 := by
        apply Int.toNat_of_nonpos
        exact mul_nonpos_of_nonpos_of_nonneg hq (by omega)
      rw [this]; exact Nat.dvd_zero _
    · obtain ⟨k, rfl⟩ := Int.eq_ofNat_of_zero_le hq
      rw [show ((k : Int) * (ps : Int)).toNat = k * ps by rw [← Nat.cast_mul]; rfl]
      exact Dvd.intro_left _ rfl

/-- **C160.** Slicing never fails, whatever floating point yields.  Without a grid there is only the
resized image.  With a grid of `g.1` columns and `g.2` rows there are `1 + g.1 * g.2` images; the slices
have one common size, every side is a multiple of the patch size, and the slices in order — row by row,
left to right — tile the refined image: each of its pixels is in exactly the slice where it belongs. -/
theorem C160_slices {β : Type} {ps : Nat} (hps : 0 < ps) (maxS area : Nat) (err : Nat × Nat → Int) (r : Rounds)
    (resize : Nat → Nat → Mem β) (fresh : Mem β) :
    ∃ imgs og, sliceImages maxS ps area err r resize fresh = some (imgs, og) ∧
      (∀ im ∈ imgs, Side ps im.w ∧ Side ps im.h) ∧
      (∃ sw sh, imgs[0]? = some ⟨sw, sh, resize sw sh⟩) ∧
      (og = none → imgs.length = 1) ∧
      ∀ g, og = some g → imgs.length = 1 + g.1 * g.2 ∧ ∃ bw bh, 0 < bw ∧ 0 < bh ∧
        ∀ X Y c, X < bw * g.1 → Y < bh * g.2 → c < 3 → ∃ im, imgs[1 + (Y / bh * g.1 + X / bw)]? = some im ∧
          im.w = bw ∧ im.h = bh ∧
          im.px (X % bw) (Y % bh) c = (⟨bw * g.1, bh * g.2, resize (bw * g.1) (bh * g.2)⟩ : Img β).px X Y c := by
  unfold sliceImages
  dsimp only [sourceSize, refineSize]
  have hside := fun q => ensureDivide_side q ps
  cases hg : slicedGrid maxS area err false with
  | none =>
    refine ⟨_, _, rfl, ?_, ⟨_, _, rfl⟩, fun _ => rfl, fun g h => by cases h⟩
    intro im him
    rw [List.mem_singleton] at him
    subst him
    exact ⟨hside _, hside _⟩
  | some g =>
    obtain ⟨g1, g2, -⟩ := C160_grid hg
    obtain ⟨bw, hbw⟩ : ∃ bw, bw = ensureDivide r.sliceW ps := ⟨_, rfl⟩
    obtain ⟨bh, hbh⟩ : ∃ bh, bh = ensureDivide r.sliceH ps := ⟨_, rfl⟩
    have sbw : Side ps bw := hbw ▸ hside _
    have sbh : Side ps bh := hbh ▸ hside _
    have bw0 : 0 < bw := by have := sbw.2; omega
    have bh0 : 0 < bh := by have := sbh.2; omega
    dsimp only
    rw [← hbw, ← hbh]
    obtain ⟨t, ht, hp⟩ := split_spec (im := ⟨bw * g.1, bh * g.2, resize (bw * g.1) (bh * g.2)⟩) (fresh := fresh)
      (g := g) bw0 bh0 g1 g2 rfl rfl
    rw [ht]
    refine ⟨_, _, rfl, ?_, ⟨_, _, rfl⟩, fun h => (by cases h), ?_⟩
    · intro im him
      rcases List.mem_cons.1 him with rfl | him
      · exact ⟨hside _, hside _⟩
      · obtain ⟨row, hrow, him⟩ := List.mem_flatten.1 him
        obtain ⟨r', hr', rfl⟩ := List.mem_map.1 hrow
        obtain ⟨c', hc', rfl⟩ := List.mem_map.1 him
        obtain ⟨h1, h2, -⟩ := hp r' c' (List.mem_range.1 hr') (List.mem_range.1 hc')
        rw [h1, h2]; exact ⟨sbw, sbh⟩
    · rintro g' hg'
      cases hg'
      refine ⟨?_, bw, bh, bw0, bh0, ?_⟩
      · simp [List.length_flatten, Function.comp_def, Nat.add_comm, Nat.mul_comm]
      · intro X Y c hX hY hc
        have hr : Y / bh < g.2 := Nat.div_lt_of_lt_mul hY
        have hcl : X / bw < g.1 := Nat.div_lt_of_lt_mul hX
        obtain ⟨h1, h2, h3⟩ := hp _ _ hr hcl
        refine ⟨t (Y / bh) (X / bw), ?_, h1, h2, ?_⟩
        · rw [Nat.add_comm 1, List.getElem?_cons_succ]
          exact flatten_get t hr hcl
        · rw [h3 _ _ c (Nat.mod_lt _ bw0) (Nat.mod_lt _ bh0) hc, Nat.mul_comm (X / bw), Nat.mul_comm (Y / bh),
            Nat.div_add_mod, Nat.div_add_mod]

/-! ## Tensors -/

/-- **C160.** The tensor of an image: column `p * ps + kw` of row `kh` is pixel `(kw, kh)` of patch `p`,
patches counted row by row. -/
theorem C160_patches {β F : Type} {ps : Nat} (hps : 0 < ps) (norm : Nat → β → F) (fresh : Mem F) (im : Img β)
    (hw : ps ∣ im.w) (hh : ps ∣ im.h) :
    ∃ t, patchTensor ps norm fresh im = some t ∧
      ∀ c ph pw kh kw, c < 3 → ph < im.h / ps → pw < im.w / ps → kh < ps → kw < ps →
        t (c * (ps * hwOf ps im) + kh * hwOf ps im + ((ph * (im.w / ps) + pw) * ps + kw))
          = norm c (im.px (pw * ps + kw) (ph * ps + kh) c) := by
  obtain ⟨nw, hnw⟩ := hw
  obtain ⟨nh, hnh⟩ := hh
  have ew : im.w / ps = nw := by rw [hnw]; exact Nat.mul_div_cancel_left _ hps
  have eh : im.h / ps = nh := by rw [hnh]; exact Nat.mul_div_cancel_left _ hps
  unfold patchTensor
  have hmem : ∀ j, j ∈ patchJobs ps im.h im.w ↔ ∃ c ph pw kh, c < 3 ∧ ph < nh ∧ pw < nw ∧ kh < ps ∧
      j = (c * (ps * (nh * nw) * ps) + kh * (nh * nw * ps) + (ph * nw + pw) * ps,
        c * (im.h * im.w) + (ph * ps + kh) * im.w + pw * ps) := by
    intro j
    unfold patchJobs
    simp only [ew, eh, List.mem_flatMap, List.mem_map, List.mem_range]
    constructor
    · rintro ⟨c, hc, ph, h1, pw, h2, kh, h3, rfl⟩
      exact ⟨c, ph, pw, kh, hc, h1, h2, h3, rfl⟩
    · rintro ⟨c, ph, pw, kh, hc, h1, h2, h3, rfl⟩
      exact ⟨c, hc, ph, h1, pw, h2, kh, h3, rfl⟩
  have hHW : hwOf ps im = nh * nw * ps := by unfold hwOf; rw [ew, eh]
  rw [ew, eh, hHW]
  have hD : ps * (nh * nw) * ps = ps * (nh * nw * ps) := by ring
  obtain ⟨m', e, hv, -⟩ := copies_spec (capD := 3 * ps * (nh * nw * ps)) (capS := 3 * im.h * im.w) (n := ps)
    (src := chw norm im) (patchJobs ps im.h im.w) fresh (by
      intro j hj
      obtain ⟨c, ph, pw, kh, hc, h1, h2, h3, rfl⟩ := (hmem j).1 hj
      have a1 := row_le (k := nw) h1
      have a2 := row_le (k := ps) (show ph * nw + pw < nh * nw by omega)
      have a3 := row_le (k := nh * nw * ps) h3
      have a4 := row_le (k := ps * (nh * nw * ps)) hc
      have b1 := row_le (k := ps) h2
      have b2 := row_le (k := ps) h1
      have b3 := row_le (k := im.w) (show ph * ps + kh < im.h by rw [hnh, Nat.mul_comm ps]; omega)
      have b4 := row_le (k := im.h * im.w) hc
      rw [hD]
      constructor
      · show c * (ps * (nh * nw * ps)) + kh * (nh * nw * ps) + (ph * nw + pw) * ps + ps ≤ 3 * ps * (nh * nw * ps)
        rw [show 3 * ps * (nh * nw * ps) = 3 * (ps * (nh * nw * ps)) by ring]
        omega
      · show c * (im.h * im.w) + (ph * ps + kh) * im.w + pw * ps + ps ≤ 3 * im.h * im.w
        rw [show 3 * im.h * im.w = 3 * (im.h * im.w) by ring]
        have b1' : pw * ps + ps ≤ im.w := by rw [hnw, Nat.mul_comm ps]; exact b1
        omega)
  refine ⟨m', e, ?_⟩
  intro c ph pw kh kw hc h1 h2 h3 h4
  have q1 := row_le (k := nw) h1
  have q2 := row_le (k := ps) (show ph * nw + pw < nh * nw by omega)
  have q3 := row_le (k := nh * nw * ps) h3
  apply hv
  · refine ⟨_, (hmem _).2 ⟨c, ph, pw, kh, hc, h1, h2, h3, rfl⟩, ?_, ?_⟩
    · show c * (ps * (nh * nw) * ps) + _ + _ ≤ _
      rw [hD]; omega
    · show _ < c * (ps * (nh * nw) * ps) + _ + _ + ps
      rw [hD]; omega
  · intro j hj l1 l2
    obtain ⟨c', ph', pw', kh', hc', h1', h2', h3', rfl⟩ := (hmem j).1 hj
    have l1' : c' * (ps * (nh * nw) * ps) + kh' * (nh * nw * ps) + (ph' * nw + pw') * ps
        ≤ c * (ps * (nh * nw * ps)) + kh * (nh * nw * ps) + ((ph * nw + pw) * ps + kw) := l1
    have l2' : c * (ps * (nh * nw * ps)) + kh * (nh * nw * ps) + ((ph * nw + pw) * ps + kw)
        < c' * (ps * (nh * nw) * ps) + kh' * (nh * nw * ps) + (ph' * nw + pw') * ps + ps := l2
    rw [hD] at l1' l2'
    have q1' := row_le (k := nw) h1'
    have q2' := row_le (k := ps) (show ph' * nw + pw' < nh * nw by omega)
    have q3' := row_le (k := nh * nw * ps) h3'
    obtain ⟨d, hd⟩ : ∃ d, c * (ps * (nh * nw * ps)) + kh * (nh * nw * ps) + ((ph * nw + pw) * ps + kw)
        = c' * (ps * (nh * nw * ps)) + kh' * (nh * nw * ps) + (ph' * nw + pw') * ps + d := ⟨_, (Nat.add_sub_of_le l1').symm⟩
    have hdlt : d < ps := by omega
    obtain ⟨u1, u2⟩ := seg_unique (n := ps * (nh * nw * ps)) (a := c) (b := c')
      (x := kh * (nh * nw * ps) + ((ph * nw + pw) * ps + kw)) (y := kh' * (nh * nw * ps) + ((ph' * nw + pw') * ps + d))
      (by omega) (by omega) (by omega)
    obtain ⟨u3, u4⟩ := seg_unique (n := nh * nw * ps) (a := kh) (b := kh')
      (x := (ph * nw + pw) * ps + kw) (y := (ph' * nw + pw') * ps + d) (by omega) (by omega) u2
    obtain ⟨u5, u6⟩ := seg_unique (n := ps) h4 hdlt u4
    obtain ⟨u7, u8⟩ := seg_unique (n := nw) h2 h2' u5
    subst u1 u3 u6 u7 u8
    have b1 := row_le (k := ps) h2
    have b2 := row_le (k := ps) h1
    have b3 := row_le (k := im.w) (show ph * ps + kh < im.h by rw [hnh, Nat.mul_comm ps]; omega)
    have b1' : pw * ps + ps ≤ im.w := by rw [hnw, Nat.mul_comm ps]; exact b1
    show chw norm im (c * (im.h * im.w) + (ph * ps + kh) * im.w + pw * ps
      + (c * (ps * (nh * nw * ps)) + kh * (nh * nw * ps) + ((ph * nw + pw) * ps + kw)
          - (c * (ps * (nh * nw) * ps) + kh * (nh * nw * ps) + (ph * nw + pw) * ps))) = _
    rw [hD, show c * (im.h * im.w) + (ph * ps + kh) * im.w + pw * ps
      + (c * (ps * (nh * nw * ps)) + kh * (nh * nw * ps) + ((ph * nw + pw) * ps + kw)
          - (c * (ps * (nh * nw * ps)) + kh * (nh * nw * ps) + (ph * nw + pw) * ps))
        = im.h * im.w * c + (im.w * (ph * ps + kh) + (pw * ps + kw)) by
      rw [Nat.mul_comm (im.h * im.w), Nat.mul_comm im.w]; omega]
    unfold chw
    have w0 : 0 < im.w := by omega
    have hx : pw * ps + kw < im.w := by omega
    have hlt : im.w * (ph * ps + kh) + (pw * ps + kw) < im.h * im.w := by
      rw [Nat.mul_comm im.w]; omega
    have hw0 : 0 < im.h * im.w := by omega
    rw [Nat.mul_add_div hw0, Nat.mul_add_mod, Nat.div_eq_of_lt hlt, Nat.mod_eq_of_lt hlt, Nat.add_zero,
      Nat.mul_add_mod, Nat.mod_eq_of_lt hx, Nat.mul_add_div w0, Nat.div_eq_of_lt hx, Nat.add_zero]

/-! ## The batch -/

theorem maxHw_ge {l : List Nat} : ∀ x ∈ l, x ≤ maxHw l := by
  have key : ∀ (l : List Nat) (a : Nat), a ≤ l.foldl (fun a b => if b > a then b else a) a ∧
      ∀ x ∈ l, x ≤ l.foldl (fun a b => if b > a then b else a) a := by
    intro l
    induction l with
    | nil => intro a; simp
    | cons b l ih =>
      intro a
      obtain ⟨h1, h2⟩ := ih (if b > a then b else a)
      rw [List.foldl_cons]
      refine ⟨le_trans (by split_ifs <;> omega) h1, ?_⟩
      intro x hx
      rcases List.mem_cons.1 hx with rfl | hx
      · exact le_trans (by split_ifs <;> omega) h1
      · exact h2 x hx
  exact (key l _).2

theorem padLoop_spec {F : Type} {ps HW B : Nat} : ∀ (ts : List (Nat × Mem F)) (b : Nat) (m : Mem F),
    b + ts.length ≤ B → (∀ t ∈ ts, t.1 ≤ HW) →
    ∃ m', padLoop ps HW B ts b m = some m' ∧
      (∀ i t c p x, ts[i]? = some t → c < 3 → p < ps → x < HW →
        m' (((b + i) * 3 + c) * ps * HW + p * HW + x)
          = if x < t.1 then t.2 (c * ps * t.1 + p * t.1 + x) else m (((b + i) * 3 + c) * ps * HW + p * HW + x)) ∧
      ∀ y, y < b * 3 * ps * HW → m' y = m y
  | [], b, m, _, _ => ⟨m, rfl, fun i t c p x h => by simp at h, fun _ _ => rfl⟩
  | (hw, t) :: ts, b, m, hB, hHW => by
    have hle : hw ≤ HW := hHW _ List.mem_cons_self
    have hbB : b < B := by simp only [List.length_cons] at hB; omega
    have hmem : ∀ j, j ∈ padJobs ps HW hw b ↔ ∃ c p, c < 3 ∧ p < ps ∧
        j = (b * 3 * ps * HW + c * ps * HW + p * HW, c * ps * hw + p * hw) := by
      intro j
      unfold padJobs
      simp only [List.mem_flatMap, List.mem_map, List.mem_range]
      constructor
      · rintro ⟨c, hc, p, h, rfl⟩; exact ⟨c, p, hc, h, rfl⟩
      · rintro ⟨c, p, hc, h, rfl⟩; exact ⟨c, hc, p, h, rfl⟩
    obtain ⟨m1, e1, hv, hn⟩ := copies_spec (capD := B * 3 * ps * HW) (capS := 3 * ps * hw) (n := hw) (src := t)
      (padJobs ps HW hw b) m (by
        intro j hj
        obtain ⟨c, p, hc, hp, rfl⟩ := (hmem j).1 hj
        have a1 := row_le (k := HW) hp
        have a2 := row_le (k := ps * HW) hc
        have a3 := row_le (k := 3 * ps * HW) hbB
        have b1 := row_le (k := hw) hp
        have b2 := row_le (k := ps * hw) hc
        constructor
        · show b * 3 * ps * HW + c * ps * HW + p * HW + hw ≤ B * 3 * ps * HW
          rw [show b * 3 * ps * HW = b * (3 * ps * HW) by ring, show B * 3 * ps * HW = B * (3 * ps * HW) by ring,
            show c * ps * HW = c * (ps * HW) by ring]
          rw [show 3 * ps * HW = 3 * (ps * HW) by ring] at *
          omega
        · show c * ps * hw + p * hw + hw ≤ 3 * ps * hw
          rw [show c * ps * hw = c * (ps * hw) by ring, show 3 * ps * hw = 3 * (ps * hw) by ring]
          omega)
    obtain ⟨m2, e2, hv2, hn2⟩ := padLoop_spec (ps := ps) (HW := HW) (B := B) ts (b + 1) m1 (by simp only [List.length_cons] at hB; omega)
      (fun u hu => hHW u (List.mem_cons_of_mem _ hu))
    refine ⟨m2, ?_, ?_, ?_⟩
    · rw [padLoop, e1]; exact e2
    · intro i u c p x hi hc hp hx
      have a1 := row_le (k := HW) hp
      have a2 := row_le (k := ps * HW) hc
      cases i with
      | zero =>
        simp only [List.getElem?_cons_zero, Option.some.injEq] at hi
        subst hi
        have hlt : ((b + 0) * 3 + c) * ps * HW + p * HW + x < (b + 1) * 3 * ps * HW := by
          rw [show ((b + 0) * 3 + c) * ps * HW = b * (3 * (ps * HW)) + c * (ps * HW) by ring,
            show (b + 1) * 3 * ps * HW = b * (3 * (ps * HW)) + 3 * (ps * HW) by ring]
          omega
        rw [hn2 _ hlt]
        have haddr : ∀ c' p', b * 3 * ps * HW + c' * ps * HW + p' * HW = b * (3 * (ps * HW)) + (c' * (ps * HW) + p' * HW) := by
          intro c' p'; ring
        have hY : ((b + 0) * 3 + c) * ps * HW + p * HW + x = b * (3 * (ps * HW)) + (c * (ps * HW) + (p * HW + x)) := by ring
        have huniq : ∀ c' p', c' < 3 → p' < ps → ∀ d, d < HW →
            b * (3 * (ps * HW)) + (c * (ps * HW) + (p * HW + x)) = b * (3 * (ps * HW)) + (c' * (ps * HW) + p' * HW) + d →
            c = c' ∧ p = p' ∧ x = d := by
          intro c' p' hc' hp' d hd he
          have f1 := row_le (k := HW) hp'
          obtain ⟨u1, u2⟩ := seg_unique (n := ps * HW) (a := c) (b := c') (x := p * HW + x) (y := p' * HW + d)
            (by omega) (by omega) (by omega)
          obtain ⟨u3, u4⟩ := seg_unique (n := HW) hx hd u2
          exact ⟨u1, u3, u4⟩
        by_cases hxt : x < hw
        · rw [if_pos hxt]
          apply hv
          · refine ⟨_, (hmem _).2 ⟨c, p, hc, hp, rfl⟩, ?_, ?_⟩
            · show b * 3 * ps * HW + c * ps * HW + p * HW ≤ _
              rw [haddr, hY]; omega
            · show _ < b * 3 * ps * HW + c * ps * HW + p * HW + hw
              rw [haddr, hY]; omega
          · intro j hj l1 l2
            obtain ⟨c', p', hc', hp', rfl⟩ := (hmem j).1 hj
            have l1' : b * 3 * ps * HW + c' * ps * HW + p' * HW ≤ ((b + 0) * 3 + c) * ps * HW + p * HW + x := l1
            have l2' : ((b + 0) * 3 + c) * ps * HW + p * HW + x < b * 3 * ps * HW + c' * ps * HW + p' * HW + hw := l2
            rw [haddr, hY] at l1' l2'
            obtain ⟨d, hd⟩ := Nat.exists_eq_add_of_le l1'
            obtain ⟨rfl, rfl, rfl⟩ := huniq c' p' hc' hp' d (by omega) hd
            show t (c * ps * hw + p * hw + (((b + 0) * 3 + c) * ps * HW + p * HW + x
              - (b * 3 * ps * HW + c * ps * HW + p * HW))) = _
            rw [haddr, hY]
            congr 1
            dsimp only
            omega
        · rw [if_neg hxt]
          apply hn
          intro j hj hcov
          obtain ⟨c', p', hc', hp', rfl⟩ := (hmem j).1 hj
          obtain ⟨l1', l2'⟩ : b * 3 * ps * HW + c' * ps * HW + p' * HW ≤ ((b + 0) * 3 + c) * ps * HW + p * HW + x ∧
            ((b + 0) * 3 + c) * ps * HW + p * HW + x < b * 3 * ps * HW + c' * ps * HW + p' * HW + hw := hcov
          rw [haddr, hY] at l1' l2'
          obtain ⟨d, hd⟩ := Nat.exists_eq_add_of_le l1'
          obtain ⟨rfl, rfl, rfl⟩ := huniq c' p' hc' hp' d (by omega) hd
          omega
      | succ i =>
        rw [List.getElem?_cons_succ] at hi
        have := hv2 i u c p x hi hc hp hx
        rw [show b + 1 + i = b + (i + 1) by ring] at this
        rw [this]
        split_ifs
        · rfl
        · apply hn
          intro j hj hcov
          obtain ⟨c', p', hc', hp', rfl⟩ := (hmem j).1 hj
          obtain ⟨-, l2'⟩ : _ ∧ ((b + (i + 1)) * 3 + c) * ps * HW + p * HW + x
            < b * 3 * ps * HW + c' * ps * HW + p' * HW + hw := hcov
          have f1 := row_le (k := HW) hp'
          have f2 := row_le (k := ps * HW) hc'
          rw [show ((b + (i + 1)) * 3 + c) * ps * HW + p * HW + x
              = b * (3 * (ps * HW)) + 3 * (ps * HW) + (i * 3 * (ps * HW) + c * (ps * HW) + (p * HW + x)) by ring,
            show b * 3 * ps * HW + c' * ps * HW + p' * HW + hw
              = b * (3 * (ps * HW)) + (c' * (ps * HW) + p' * HW + hw) by ring] at l2'
          omega
    · intro y hy
      rw [hn2 y (by
        rw [show (b + 1) * 3 * ps * HW = b * 3 * ps * HW + 3 * ps * HW by ring]; omega)]
      apply hn
      intro j hj hcov
      obtain ⟨c', p', hc', hp', rfl⟩ := (hmem j).1 hj
      have : b * 3 * ps * HW + c' * ps * HW + p' * HW ≤ y := hcov.1
      omega

/-- **C160.** `pixel_values`: for every image of the batch, every channel, patch and pixel of the patch the
normalised pixel, and zeros behind the patches of the smaller images. -/
theorem C160_pixel_values {β F : Type} {ps : Nat} (hps : 0 < ps) (norm : Nat → β → F) (fresh : Mem F) (zero : F)
    (imgs : List (Img β)) (hs : ∀ im ∈ imgs, Side ps im.w ∧ Side ps im.h) :
    ∃ ts, imgs.mapM (fun im => (patchTensor ps norm fresh im).map fun t => (hwOf ps im, t)) = some ts ∧
      ∃ m, pixelValues zero ps ts = some m ∧
        ∃ HW, (∀ im ∈ imgs, hwOf ps im ≤ HW) ∧
        ∀ i im, imgs[i]? = some im →
          (∀ c ph pw kh kw, c < 3 → ph < im.h / ps → pw < im.w / ps → kh < ps → kw < ps →
            m ((i * 3 + c) * ps * HW + kh * HW + ((ph * (im.w / ps) + pw) * ps + kw))
              = norm c (im.px (pw * ps + kw) (ph * ps + kh) c)) ∧
          ∀ c kh x, c < 3 → kh < ps → hwOf ps im ≤ x → x < HW → m ((i * 3 + c) * ps * HW + kh * HW + x) = zero := by
  classical
  let f : Img β → Mem F := fun im => if h : Side ps im.w ∧ Side ps im.h then
    Classical.choose (C160_patches hps norm fresh im h.1.1 h.2.1) else fresh
  have hf : ∀ im ∈ imgs, patchTensor ps norm fresh im = some (f im) ∧
      ∀ c ph pw kh kw, c < 3 → ph < im.h / ps → pw < im.w / ps → kh < ps → kw < ps →
        f im (c * (ps * hwOf ps im) + kh * hwOf ps im + ((ph * (im.w / ps) + pw) * ps + kw))
          = norm c (im.px (pw * ps + kw) (ph * ps + kh) c) := by
    intro im him
    have h := hs im him
    show patchTensor ps norm fresh im = some (dite _ _ _) ∧ _
    have : f im = Classical.choose (C160_patches hps norm fresh im h.1.1 h.2.1) := dif_pos h
    rw [dif_pos h, this]
    exact Classical.choose_spec (C160_patches hps norm fresh im h.1.1 h.2.1)
  refine ⟨imgs.map fun im => (hwOf ps im, f im), ?_, ?_⟩
  · apply Verif.Shard.mapM_all
    intro im him
    rw [(hf im him).1]; rfl
  · unfold pixelValues
    rw [List.map_map, List.length_map]
    have hge : ∀ im ∈ imgs, hwOf ps im ≤ maxHw (imgs.map ((·.1) ∘ fun im => (hwOf ps im, f im))) := by
      intro im him
      exact maxHw_ge _ (List.mem_map.2 ⟨im, him, rfl⟩)
    obtain ⟨HW, hHW⟩ : ∃ HW, HW = maxHw (imgs.map ((·.1) ∘ fun im => (hwOf ps im, f im))) := ⟨_, rfl⟩
    rw [← hHW] at hge ⊢
    obtain ⟨m, e, hv, -⟩ := padLoop_spec (ps := ps) (HW := HW) (B := imgs.length)
      (imgs.map fun im => (hwOf ps im, f im)) 0 (fun _ => zero) (by simp) (by
        intro t ht
        obtain ⟨im, him, rfl⟩ := List.mem_map.1 ht
        exact hge im him)
    refine ⟨m, e, HW, hge, ?_⟩
    intro i im hi
    have him : im ∈ imgs := List.mem_of_getElem? hi
    have hget : (imgs.map fun im => (hwOf ps im, f im))[i]? = some (hwOf ps im, f im) := by
      rw [List.getElem?_map, hi]; rfl
    constructor
    · intro c ph pw kh kw hc h1 h2 h3 h4
      have q1 := row_le (k := im.w / ps) h1
      have q2 := row_le (k := ps) (show ph * (im.w / ps) + pw < im.h / ps * (im.w / ps) by omega)
      have hlt : (ph * (im.w / ps) + pw) * ps + kw < hwOf ps im := by unfold hwOf; omega
      have := hv i _ c kh _ hget hc h3 (Nat.lt_of_lt_of_le hlt (hge im him))
      rw [Nat.zero_add, if_pos hlt] at this
      rw [this, ← (hf im him).2 c ph pw kh kw hc h1 h2 h3 h4]
      show f im _ = f im _
      congr 1
      rw [show c * ps * hwOf ps im = c * (ps * hwOf ps im) by ring]
    · intro c kh x hc h3 hx hxHW
      have := hv i _ c kh x hget hc h3 hxHW
      rw [Nat.zero_add, if_neg (by show ¬ x < hwOf ps im; omega)] at this
      exact this

/-! ## Non-vacuity -/

/-- 1000 by 500 pixels: three times the area of a slice; a grid of two columns has error 0. -/
example : slicedGrid 9 3 (fun g => if g = (2, 1) then 0 else 5) false = some (2, 1) := by decide +kernel

/-- Two slices of 14 by 14. -/
example : (sliceImages 9 14 3 (fun g => if g = (2, 1) then 0 else 5) ⟨1, 1, 1, 1⟩ (fun _ _ i => i) (fun _ => 0)).map
    (fun r => (r.1.map fun im => (im.w, im.h, im.px 1 2 0), r.2))
    = some ([(14, 14, 87), (14, 14, 171), (14, 14, 213)], some (2, 1)) := by decide +kernel

example : Side 14 (ensureDivide 3 14) ∧ ensureDivide 3 14 = 42 ∧ ensureDivide 0 14 = 14 :=
  ⟨ensureDivide_side _ _, rfl, rfl⟩

end Verif.Slice
