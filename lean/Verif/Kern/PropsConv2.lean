import Verif.Kern.PropsConv3

/-! C127, two dimensions. -/

namespace Verif.Kern

open Verif.Tensor (numel InB lin lin_lt)

variable {α : Type} [CommRing α]

theorem lin4 (A B C D a b c d : Nat) :
    lin [A, B, C, D] [a, b, c, d] = a * (B * (C * D)) + (b * (C * D) + (c * D + d)) := by
  simp [lin, numel]

theorem inB4 {A B C D : Nat} {ix : List Nat} (h : InB [A, B, C, D] ix) :
    ∃ a b c d, ix = [a, b, c, d] ∧ a < A ∧ b < B ∧ c < C ∧ d < D := by
  match ix, h with
  | [a, b, c, d], h => exact ⟨a, b, c, d, rfl, h.1, h.2.1, h.2.2.1, h.2.2.2.1⟩

theorem zeroRow_eq (n : Nat) : (zeroRow n : List α) = List.replicate n 0 := by
  have full : ∀ q, q * 4 ≤ n → ((List.range q).flatMap fun i => if i * 4 + 3 < n then List.replicate 4 (0 : α)
      else List.replicate (n - i * 4) 0) = List.replicate (q * 4) 0 := by
    intro q
    induction q with
    | zero => intro _; rfl
    | succ q ih =>
      intro hq
      rw [List.range_succ, List.flatMap_append, ih (by omega)]
      simp only [List.flatMap_cons, List.flatMap_nil, List.append_nil]
      rw [if_pos (by omega), List.replicate_append_replicate]
      congr 1
      omega
  unfold zeroRow
  by_cases h : n % 4 = 0
  · rw [full ((n + 3) / 4) (by omega)]
    congr 1
    omega
  · rw [show (n + 3) / 4 = n / 4 + 1 by omega, List.range_succ, List.flatMap_append, full (n / 4) (by omega)]
    simp only [List.flatMap_cons, List.flatMap_nil, List.append_nil]
    rw [if_neg (by omega), List.replicate_append_replicate]
    congr 1
    omega

theorem dataRow_eq (n : Nat) (v : Nat → α) : dataRow n v = (List.range n).map v := by
  have full : ∀ q, ((List.range q).flatMap fun q => [v (q * 4), v (q * 4 + 1), v (q * 4 + 2), v (q * 4 + 3)]) =
      (List.range (q * 4)).map v := by
    intro q
    induction q with
    | zero => rfl
    | succ q ih =>
      rw [List.range_succ, List.flatMap_append, ih, Nat.add_mul, List.range_add, List.map_append]
      simp [List.range_succ]
  unfold dataRow
  rw [full]
  conv => rhs; rw [show n = n / 4 * 4 + (n - n / 4 * 4) by omega]
  rw [List.range_add, List.map_append, List.map_map]
  rfl

theorem colRow_get (o : Conv2Opts) (H W outW : Nat) (x : Nat → α) (x0 ky kx oy : Nat) (d : α) :
    (colRow o H W outW x x0 ky kx oy).length = outW ∧ ∀ ox < outW, (colRow o H W outW x x0 ky kx oy).getD ox d =
      padAt H o.ph (fun q => padAt W o.pw (fun r => x (x0 + q * W + r)) (ox * o.sw + kx * o.dw)) (oy * o.sh + ky * o.dh) := by
  unfold colRow
  have hy : ((oy * o.sh + ky * o.dh : Nat) : Int) - o.ph = -(o.ph : Int) + ky * o.dh + oy * o.sh := by push_cast; ring
  simp only []
  split
  · rename_i hin
    rw [dataRow_eq]
    refine ⟨by simp, fun ox hox => ?_⟩
    rw [List.getD_eq_getElem?_getD, List.getElem?_map, List.getElem?_range hox]
    simp only [Option.map_some, Option.getD_some]
    have hz : ((ox * o.sw + kx * o.dw : Nat) : Int) - o.pw = -(o.pw : Int) + kx * o.dw + ox * o.sw := by push_cast; ring
    have hin' := hin
    unfold inside at hin'
    rw [padAt_int, hy, if_pos hin', padAt_int, hz]
    rfl
  · rename_i hin
    rw [zeroRow_eq]
    refine ⟨by simp, fun ox hox => ?_⟩
    have hin' := hin
    unfold inside at hin'
    rw [padAt_int, hy, if_neg hin']
    simp [List.getD_eq_getElem?_getD, hox]

theorem im2col_get (o : Conv2Opts) (H W outH outW : Nat) (x : Nat → α) (d : α) {c ky kx oy ox : Nat} (hc : c < o.cin)
    (hky : ky < o.kh) (hkx : kx < o.kw) (hoy : oy < outH) (hox : ox < outW) :
    (im2col o H W outH outW x).getD (((c * o.kh + ky) * o.kw + kx) * (outH * outW) + (oy * outW + ox)) d =
      padAt H o.ph (fun q => padAt W o.pw (fun r => x (c * (H * W) + q * W + r)) (ox * o.sw + kx * o.dw)) (oy * o.sh + ky * o.dh) := by
  have h4 := fun c ky kx => flatMap_getD (n := outH) (L := outW) (f := fun oy => colRow o H W outW x (c * (H * W)) ky kx oy)
    (fun oy _ => (colRow_get o H W outW x _ ky kx oy d).1) d
  have h3 := fun c ky => flatMap_getD (n := o.kw) (f := fun kx => (List.range outH).flatMap fun oy =>
    colRow o H W outW x (c * (H * W)) ky kx oy) (fun kx _ => (h4 c ky kx).1) d
  have h2 := fun c => flatMap_getD (n := o.kh) (f := fun ky => (List.range o.kw).flatMap fun kx => (List.range outH).flatMap fun oy =>
    colRow o H W outW x (c * (H * W)) ky kx oy) (fun ky _ => (h3 c ky).1) d
  have h1 := flatMap_getD (n := o.cin) (f := fun c => (List.range o.kh).flatMap fun ky => (List.range o.kw).flatMap fun kx =>
    (List.range outH).flatMap fun oy => colRow o H W outW x (c * (H * W)) ky kx oy) (fun c _ => (h2 c).1) d
  have q1 : oy * outW + ox < outH * outW := by
    calc oy * outW + ox < (oy + 1) * outW := by rw [Nat.add_mul]; omega
      _ ≤ _ := Nat.mul_le_mul_right _ hoy
  have q2 : kx * (outH * outW) + (oy * outW + ox) < o.kw * (outH * outW) := by
    calc _ < (kx + 1) * (outH * outW) := by rw [Nat.add_mul]; omega
      _ ≤ _ := Nat.mul_le_mul_right _ hkx
  have q3 : ky * (o.kw * (outH * outW)) + (kx * (outH * outW) + (oy * outW + ox)) < o.kh * (o.kw * (outH * outW)) := by
    calc _ < (ky + 1) * (o.kw * (outH * outW)) := by rw [Nat.add_mul]; omega
      _ ≤ _ := Nat.mul_le_mul_right _ hky
  rw [show ((c * o.kh + ky) * o.kw + kx) * (outH * outW) + (oy * outW + ox) =
    c * (o.kh * (o.kw * (outH * outW))) + (ky * (o.kw * (outH * outW)) + (kx * (outH * outW) + (oy * outW + ox))) by ring]
  unfold im2col
  rw [h1.2 c hc _ q3, (h2 c).2 ky hky _ q2, (h3 c ky).2 kx hkx _ q1, (h4 c ky kx).2 oy hoy ox hox]
  exact (colRow_get o H W outW x _ ky kx oy d).2 ox hox

omit [CommRing α] in
theorem packWeight_get (o : Conv2Opts) (w m : Nat → α) {oc c i j : Nat} (hoc : oc < o.cout) (hc : c < o.cin) (hi : i < o.kh)
    (hj : j < o.kw) : run (packWeight o w) m (oc * (o.cin * o.kh * o.kw) + ((c * o.kh + i) * o.kw + j)) =
      w (oc * (o.cin * o.kh * o.kw) + ((c * o.kh + i) * o.kw + j)) := by
  refine run_agree ?_ ?_ m
  · intro u hu ha y
    unfold packWeight at hu
    simp only [List.mem_flatMap, List.mem_map] at hu
    obtain ⟨oc', -, c', -, i', -, j', -, rfl⟩ := hu
    simp only [Upd.put] at ha ⊢
    rw [ha]
  · refine ⟨Upd.put (oc * (o.cin * o.kh * o.kw) + c * (o.kh * o.kw) + i * o.kw + j)
      (w (oc * (o.cin * o.kh * o.kw) + c * (o.kh * o.kw) + i * o.kw + j)), ?_, ?_⟩
    · unfold packWeight
      simp only [List.mem_flatMap, List.mem_map, List.mem_range]
      exact ⟨oc, hoc, c, hc, i, hi, j, hj, rfl⟩
    · simp only [Upd.put]
      ring

theorem sum3 (a b c : Nat) (f : Nat → α) : ∑ l ∈ Finset.range (a * b * c), f l =
    ∑ i ∈ Finset.range a, ∑ j ∈ Finset.range b, ∑ k ∈ Finset.range c, f ((i * b + j) * c + k) := by
  rw [sum_range_mul (a * b) c, sum_range_mul a b]

/-- One image of the batch. -/
theorem conv2Image_fill {o : Conv2Opts} {B H W oh ow threads : Nat} {x w : Ten α} {bias : Option (Nat → α)} {packed junk : Nat → α}
    (hx : x.Is [B, o.cin, H, W]) (hw : w.Is [o.cout, o.cin, o.kh, o.kw]) (hp : 0 < o.cin ∧ 0 < o.cout ∧ 0 < o.kh ∧ 0 < o.kw)
    (hoh : 0 < oh) (how : 0 < ow) (ht : 0 < threads) {b : Nat} (hb : b < B) {m m' : Nat → α}
    (hex : Exec (conv2Image o H W oh ow x.data (run (packWeight o w.data) packed) bias threads junk b) m m') :
    (∀ j < o.cout * oh * ow, m' (b * (o.cout * oh * ow) + j) = conv2At x w bias o.cin H W o.kh o.kw o.sh o.sw o.ph o.pw o.dh o.dw
      b (j / (oh * ow)) (j % (oh * ow) / ow) (j % (oh * ow) % ow)) ∧
    ∀ y, y < b * (o.cout * oh * ow) ∨ b * (o.cout * oh * ow) + o.cout * oh * ow ≤ y → m' y = m y := by
  unfold conv2Image at hex
  simp only [] at hex
  obtain ⟨m1, e1, e2⟩ := hex.app
  obtain ⟨f1, f2⟩ := e1.unshift
  have hK : 0 < o.cin * o.kh * o.kw := Nat.mul_pos (Nat.mul_pos hp.1 hp.2.2.1) hp.2.2.2
  have hN : 0 < oh * ow := Nat.mul_pos hoh how
  have hfill := blasMatmul_fills .arm 1 o.cout (o.cin * o.kh * o.kw) (oh * ow) 0 0 0 (run (packWeight o w.data) packed)
    (fun i => (im2col o H W oh ow fun i => x.data (b * (o.cin * H * W) + i)).getD i (junk i)) none false threads hp.2.1 hK hN ht
    (Or.inl (by omega)) (Or.inr (Or.inl rfl))
  obtain ⟨g1, g2⟩ := hfill _ _ f1
  -- the product
  have hprod : ∀ oc < o.cout, ∀ y < oh, ∀ z < ow, m1 (b * (o.cout * oh * ow) + (oc * (oh * ow) + (y * ow + z))) =
      conv2At x w none o.cin H W o.kh o.kw o.sh o.sw o.ph o.pw o.dh o.dw b oc y z := by
    intro oc hoc y hy z hz
    have q1 : y * ow + z < oh * ow := by
      calc y * ow + z < (y + 1) * ow := by rw [Nat.add_mul]; omega
        _ ≤ _ := Nat.mul_le_mul_right _ hy
    have := g1 0 (by omega) oc hoc _ q1
    simp only [Nat.zero_mul, Nat.zero_add] at this
    rw [this]
    unfold prodAt conv2At
    simp only [Option.elim_none, Bool.false_eq_true, if_false, add_zero]
    rw [sum3]
    refine Finset.sum_congr rfl fun c hc => Finset.sum_congr rfl fun i hi => Finset.sum_congr rfl fun j hj => ?_
    have hc := Finset.mem_range.mp hc
    have hi := Finset.mem_range.mp hi
    have hj := Finset.mem_range.mp hj
    rw [packWeight_get o w.data packed hoc hc hi hj, im2col_get o H W oh ow _ _ hc hi hj hy hz,
      hw.get (by exact ⟨hoc, hc, hi, hj, trivial⟩), lin4, mul_comm]
    congr 1
    · have hrow : ∀ q, q < H → padAt W o.pw (fun r => x.data (b * (o.cin * H * W) + (c * (H * W) + q * W + r))) (z * o.sw + j * o.dw)
          = padAt W o.pw (fun r => x.get [b, c, q, r]) (z * o.sw + j * o.dw) := by
        intro q hq
        unfold padAt
        split
        · rename_i hr
          beta_reduce
          rw [hx.get (by exact ⟨hb, hc, hq, hr.2, trivial⟩), lin4]
          congr 1
          ring
        · rfl
      unfold padAt
      split
      · rename_i hq
        exact hrow _ hq.2
      · rfl
    · congr 1
      ring
  have hcells : ∀ j < o.cout * oh * ow, ∃ oc y z, oc < o.cout ∧ y < oh ∧ z < ow ∧ j = oc * (oh * ow) + (y * ow + z) ∧
      j / (oh * ow) = oc ∧ j % (oh * ow) / ow = y ∧ j % (oh * ow) % ow = z := by
    intro j hj
    have a1 := Nat.div_add_mod j (oh * ow)
    have a2 := Nat.div_add_mod (j % (oh * ow)) ow
    have a3 : j % (oh * ow) < oh * ow := Nat.mod_lt _ hN
    refine ⟨_, _, _, (Nat.div_lt_iff_lt_mul hN).mpr (by rw [← Nat.mul_assoc]; exact hj), (Nat.div_lt_iff_lt_mul how).mpr a3,
      Nat.mod_lt _ how, ?_, rfl, rfl, rfl⟩
    rw [Nat.mul_comm (j / (oh * ow)) (oh * ow), Nat.mul_comm (j % (oh * ow) / ow) ow]
    omega
  have hother : ∀ y, y < b * (o.cout * oh * ow) ∨ b * (o.cout * oh * ow) + o.cout * oh * ow ≤ y → m1 y = m y := by
    intro y hy
    rcases hy with hy | hy
    · exact f2 y hy
    · have := g2 (y - b * (o.cout * oh * ow)) (by
        intro b' hb' i hi j hj
        have : b' = 0 := by omega
        subst this
        have : (i + 1) * (oh * ow) ≤ o.cout * (oh * ow) := Nat.mul_le_mul_right _ hi
        rw [Nat.add_mul, ← Nat.mul_assoc o.cout] at this
        omega)
      beta_reduce at this
      rw [show b * (o.cout * oh * ow) + (y - b * (o.cout * oh * ow)) = y by omega] at this
      exact this
  cases bias with
  | none =>
    cases e2
    refine ⟨fun j hj => ?_, hother⟩
    obtain ⟨oc, y, z, hoc, hy, hz, rfl, d1, d2, d3⟩ := hcells j hj
    rw [d1, d2, d3]
    exact hprod oc hoc y hy z hz
  | some β =>
    have := exec_single e2
    subst this
    have hone : ∀ (us : List (Upd α)), us = ((List.range o.cout).flatMap fun m => (List.range (oh * ow)).map fun n =>
        (⟨b * (o.cout * oh * ow) + m * (oh * ow) + n, fun s => s + β m⟩ : Upd α)) → ∀ oc < o.cout, ∀ n < oh * ow,
        run us m1 (b * (o.cout * oh * ow) + oc * (oh * ow) + n) = m1 (b * (o.cout * oh * ow) + oc * (oh * ow) + n) + β oc := by
      intro us hus oc hoc n hn
      subst hus
      exact run_tile (c := b * (o.cout * oh * ow)) (le_refl _) (fun m _ s => s + β m) m1 hoc hn
    constructor
    · intro j hj
      obtain ⟨oc, y, z, hoc, hy, hz, rfl, d1, d2, d3⟩ := hcells j hj
      rw [d1, d2, d3]
      have q1 : y * ow + z < oh * ow := by
        calc y * ow + z < (y + 1) * ow := by rw [Nat.add_mul]; omega
          _ ≤ _ := Nat.mul_le_mul_right _ hy
      rw [← Nat.add_assoc, hone _ rfl oc hoc _ q1, Nat.add_assoc, hprod oc hoc y hy z hz]
      simp [conv2At]
    · intro y hy
      rw [run_other, hother y hy]
      intro u hu
      simp only [List.mem_flatMap, List.mem_map, List.mem_range] at hu
      obtain ⟨oc, hoc, n, hn, rfl⟩ := hu
      have : (oc + 1) * (oh * ow) ≤ o.cout * (oh * ow) := Nat.mul_le_mul_right _ hoc
      rw [Nat.add_mul, ← Nat.mul_assoc o.cout] at this
      simp only []
      omega

/-- `C127`, two dimensions, on arm: with contiguous input and weight and a kernel that fits into the padded image, one output
per window position, each the padded, dilated convolution there, for all batch sizes, thread counts and schedules. -/
theorem C127_conv2d_partial (o : Conv2Opts) (x w : Ten α) (bias : Option (Nat → α)) (threads B H W : Nat) (packed : Nat → α)
    (junk : Nat → Nat → α) (hx : x.Is [B, o.cin, H, W]) (hw : w.Is [o.cout, o.cin, o.kh, o.kw])
    (hp : 0 < o.cin ∧ 0 < o.cout ∧ 0 < o.kh ∧ 0 < o.kw) (hs : 0 < o.sh ∧ 0 < o.sw) (ht : 0 < threads)
    (hfh : o.dh * (o.kh - 1) < H + 2 * o.ph) (hfw : o.dw * (o.kw - 1) < W + 2 * o.pw) :
    ∃ oh ow ss, conv2 .arm o x w bias threads packed junk = .ok ([B, o.cout, oh, ow], ss) ∧
      OutLen oh H o.kh o.sh o.ph o.dh ∧ OutLen ow W o.kw o.sw o.pw o.dw ∧
      Yields ss [B, o.cout, oh, ow] fun ix => conv2At x w bias o.cin H W o.kh o.kw o.sh o.sw o.ph o.pw o.dh o.dw
        (ix.getD 0 0) (ix.getD 1 0) (ix.getD 2 0) (ix.getD 3 0) := by
  obtain ⟨oh, hoh⟩ : ∃ T, T = (H + 2 * o.ph - o.dh * (o.kh - 1) - 1) / o.sh + 1 := ⟨_, rfl⟩
  obtain ⟨ow, how⟩ : ∃ T, T = (W + 2 * o.pw - o.dw * (o.kw - 1) - 1) / o.sw + 1 := ⟨_, rfl⟩
  have hc : conv2 .arm o x w bias threads packed junk = .ok ([B, o.cout, oh, ow], (List.range B).flatMap fun b =>
      conv2Image o H W oh ow x.data (run (packWeight o w.data) packed) bias threads (junk b) b) := by
    unfold conv2
    simp only [hx.1, ne_eq, not_true_eq_false, if_false]
    rw [convLen_fits hp.2.2.1 hfh, ← hoh, asSize_ok hs.1, convLen_fits hp.2.2.2 hfw, ← how, asSize_ok hs.2]
    rfl
  refine ⟨oh, ow, _, hc, hoh ▸ outLen_fits hs.1 hfh, how ▸ outLen_fits hs.2 hfw, ?_⟩
  intro m m' hex
  have ph : 0 < oh := by rw [hoh]; exact Nat.succ_pos _
  have pw : 0 < ow := by rw [how]; exact Nat.succ_pos _
  obtain ⟨h1, h2⟩ := Exec.blocks (n := B) (S := o.cout * oh * ow) (val := fun b j => conv2At x w bias o.cin H W o.kh o.kw o.sh o.sw
      o.ph o.pw o.dh o.dw b (j / (oh * ow)) (j % (oh * ow) / ow) (j % (oh * ow) % ow))
    (fun b hb m m' h => conv2Image_fill hx hw hp ph pw ht hb h) hex
  refine ⟨?_, fun y hy => h2 y (by simpa [numel, Nat.mul_assoc] using hy)⟩
  intro ix hix
  rw [out_get hix]
  obtain ⟨b, oc, y, z, rfl, hb, hoc, hy, hz⟩ := inB4 hix
  have q1 : y * ow + z < oh * ow := by
    calc y * ow + z < (y + 1) * ow := by rw [Nat.add_mul]; omega
      _ ≤ _ := Nat.mul_le_mul_right _ hy
  have q2 : oc * (oh * ow) + (y * ow + z) < o.cout * (oh * ow) := by
    calc _ < (oc + 1) * (oh * ow) := by rw [Nat.add_mul]; omega
      _ ≤ _ := Nat.mul_le_mul_right _ hoc
  have := h1 b hb _ (by rw [Nat.mul_assoc]; exact q2)
  rw [(divmod q1).1, (divmod q1).2, (divmod hz).1, (divmod hz).2] at this
  rw [lin4]
  rw [Nat.mul_assoc o.cout] at this
  exact this

/-- Refused: x86, a wrong rank, a wrong number of channels. -/
theorem C127_conv2d_refuses (s : Simd) (o : Conv2Opts) (x w : Ten α) (bias : Option (Nat → α)) (threads : Nat) (packed : Nat → α)
    (junk : Nat → Nat → α) (h : s ≠ .arm ∨ x.shape.length ≠ 4 ∨ x.shape.getD 1 0 ≠ o.cin) :
    ∃ e, conv2 s o x w bias threads packed junk = .error e := by
  unfold conv2
  cases s with
  | x86 l => exact ⟨_, rfl⟩
  | arm =>
    simp only [ne_eq, not_true_eq_false, false_or] at h
    split
    · cases ‹_ = _›
    · split
      · rename_i he
        rw [he] at h
        simp at h
        exact ⟨_, if_pos h⟩
      · exact ⟨_, rfl⟩

/-- `C127` fails: a kernel that is larger than the padded image, by less than the stride, is accepted. -/
theorem C127_conv2d_no_window_violated (o : Conv2Opts) (x w : Ten α) (bias : Option (Nat → α)) (threads B H W : Nat)
    (packed : Nat → α) (junk : Nat → Nat → α) (hx : x.shape = [B, o.cin, H, W]) (hk : 0 < o.kh ∧ 0 < o.kw)
    (hh : H + 2 * o.ph ≤ o.dh * (o.kh - 1)) (hhs : o.dh * (o.kh - 1) + 1 < H + 2 * o.ph + o.sh)
    (hw : W + 2 * o.pw ≤ o.dw * (o.kw - 1)) (hws : o.dw * (o.kw - 1) + 1 < W + 2 * o.pw + o.sw) :
    (∃ ss, conv2 .arm o x w bias threads packed junk = .ok ([B, o.cout, 1, 1], ss)) ∧
      ¬ OutLen 1 H o.kh o.sh o.ph o.dh ∧ ¬ OutLen 1 W o.kw o.sw o.pw o.dw := by
  refine ⟨?_, ?_, ?_⟩
  · unfold conv2
    simp only [hx, ne_eq, not_true_eq_false, if_false]
    have a1 := asSize_ok (stride := o.sh) (n := 1) (by omega)
    have a2 := asSize_ok (stride := o.sw) (n := 1) (by omega)
    rw [show ((1 : Nat) : Int) = 1 from rfl] at a1 a2
    rw [convLen_short hk.1 hh hhs, a1, convLen_short hk.2 hw hws, a2]
    exact ⟨_, rfl⟩
  · intro h
    have := (h 0).mp (by omega)
    omega
  · intro h
    have := (h 0).mp (by omega)
    omega

/-! ## Concrete cases -/

/-- Two channels, two outputs, kernel `2 × 1`, padding `1 × 0`, stride `2 × 1`. -/
def c2Opts : Conv2Opts where
  cin := 2
  cout := 2
  kh := 2
  kw := 1
  sh := 2
  sw := 1
  ph := 1
  pw := 0
  dh := 1
  dw := 1

def c2In : Ten ℤ := ⟨[1, 2, 2, 2], [8, 4, 2, 1], fun i => i + 1⟩
def c2W : Ten ℤ := ⟨[2, 2, 2, 1], [4, 2, 1, 1], fun i => i + 1⟩

/-- The hypotheses of `C127_conv2d_partial` are met. -/
example (threads : Nat) (ht : 0 < threads) (packed : Nat → ℤ) (junk : Nat → Nat → ℤ) :
    ∃ ss, conv2 .arm c2Opts c2In c2W (some fun i => 100 * i) threads packed junk = .ok ([1, 2, 2, 2], ss) ∧ ∀ m m', Exec ss m m' →
      (outRows [1, 2, 2, 2] m').get [0, 0, 0, 1] = 2 * 2 + 4 * 6 ∧
      (outRows [1, 2, 2, 2] m').get [0, 1, 1, 0] = 5 * 3 + 7 * 7 + 100 := by
  obtain ⟨oh, ow, ss, h, h1, h2, hc⟩ := C127_conv2d_partial c2Opts c2In c2W (some fun i => 100 * i) threads 1 2 2 packed junk
    ⟨rfl, rfl⟩ ⟨rfl, rfl⟩ (by decide) (by decide) ht (by decide) (by decide)
  have e1 : oh = 2 := by
    have a := (h1 1).mpr (by decide)
    have b := (h1 2).not.mpr (by decide)
    omega
  have e2 : ow = 2 := by
    have a := (h2 1).mpr (by decide)
    have b := (h2 2).not.mpr (by decide)
    omega
  subst e1 e2
  refine ⟨ss, h, fun m m' hex => ?_⟩
  obtain ⟨hv, -⟩ := hc m m' hex
  exact ⟨(hv [0, 0, 0, 1] (by simp [InB, c2Opts])).trans (by decide +kernel),
    (hv [0, 1, 1, 0] (by simp [InB, c2Opts])).trans (by decide +kernel)⟩

end Verif.Kern
