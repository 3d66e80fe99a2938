import Verif.Slice.Model
import Verif.Aot.Lemmas
import Verif.Shard.Tp
import Mathlib.Tactic.IntervalCases

namespace Verif.Slice

open Verif.Aot (Mem copy)

/-! ## Copies -/

/-- All copies in bounds: they succeed; a cell covered by a copy, all copies agreeing on it, holds that
value; other cells are unchanged. -/
theorem copies_spec {α : Type} {capD capS n : Nat} {src : Mem α} : ∀ (js : List (Nat × Nat)) (m : Mem α),
    (∀ j ∈ js, j.1 + n ≤ capD ∧ j.2 + n ≤ capS) →
    ∃ m', copies capD capS src n js m = some m' ∧
      (∀ y v, (∃ j ∈ js, j.1 ≤ y ∧ y < j.1 + n) →
        (∀ j ∈ js, j.1 ≤ y → y < j.1 + n → src (j.2 + (y - j.1)) = v) → m' y = v) ∧
      (∀ y, (∀ j ∈ js, ¬ (j.1 ≤ y ∧ y < j.1 + n)) → m' y = m y)
  | [], m, _ => ⟨m, rfl, fun y v h => (by obtain ⟨j, hj, _⟩ := h; cases hj), fun _ _ => rfl⟩
  | j :: js, m, hb => by
    obtain ⟨h1, h2⟩ := hb j List.mem_cons_self
    obtain ⟨m', e, hv, hn⟩ := copies_spec js
      (fun i => if j.1 ≤ i ∧ i < j.1 + n then src (j.2 + (i - j.1)) else m i)
      (fun k hk => hb k (List.mem_cons_of_mem _ hk))
    refine ⟨m', ?_, ?_, ?_⟩
    · rw [copies, Verif.Aot.copy_some h1 h2]; exact e
    · intro y v hex hall
      by_cases hc : ∃ k ∈ js, k.1 ≤ y ∧ y < k.1 + n
      · exact hv y v hc (fun k hk => hall k (List.mem_cons_of_mem _ hk))
      · rw [hn y (fun k hk hh => hc ⟨k, hk, hh⟩)]
        obtain ⟨k, hk, hh⟩ := hex
        rcases List.mem_cons.1 hk with rfl | hk
        · rw [if_pos hh]; exact hall k List.mem_cons_self hh.1 hh.2
        · exact absurd ⟨k, hk, hh⟩ hc
    · intro y hy
      rw [hn y (fun k hk => hy k (List.mem_cons_of_mem _ hk)), if_neg (hy j List.mem_cons_self)]

/-- Two positions in the same row of a matrix. -/
theorem seg_unique {n a b x y : Nat} (hx : x < n) (hy : y < n) (h : a * n + x = b * n + y) : a = b ∧ x = y := by
  have hn : 0 < n := by omega
  have h1 := congrArg (· / n) h
  have h2 := congrArg (· % n) h
  rw [Nat.mul_comm a, Nat.mul_comm b] at h1 h2
  simp only [Nat.mul_add_div hn, Nat.mul_add_mod, Nat.div_eq_of_lt hx, Nat.div_eq_of_lt hy,
    Nat.mod_eq_of_lt hx, Nat.mod_eq_of_lt hy, Nat.add_zero] at h1 h2
  exact ⟨h1, h2⟩

theorem row_le {a n k : Nat} (h : a < n) : a * k + k ≤ n * k := by
  have : (a + 1) * k ≤ n * k := Nat.mul_le_mul_right _ h
  rw [Nat.add_mul] at this; omega

/-! ## Cutting -/

theorem crop_spec {β : Type} {im : Img β} {fresh : Mem β} {x y cw ch : Nat} (hx : x + cw ≤ im.w)
    (hy : y + ch ≤ im.h) (hcw : 0 < cw) (hch : 0 < ch) :
    ∃ d, crop im fresh x y cw ch = some ⟨cw, ch, d⟩ ∧
      ∀ a b c, a < cw → b < ch → c < 3 → (⟨cw, ch, d⟩ : Img β).px a b c = im.px (x + a) (y + b) c := by
  have e1 : min x (im.w - 1) = x := by omega
  have e2 : min y (im.h - 1) = y := by omega
  have e3 : min cw (im.w - x) = cw := by omega
  have e4 : min ch (im.h - y) = ch := by omega
  unfold crop
  simp only [e1, e2, e3, e4]
  obtain ⟨m', e, hv, -⟩ := copies_spec (capD := cw * ch * 3) (capS := im.w * im.h * 3) (n := cw * 3)
    (src := im.data) ((List.range ch).map fun row => (row * cw * 3, ((y + row) * im.w + x) * 3)) fresh (by
      intro j hj
      obtain ⟨row, hr, rfl⟩ := List.mem_map.1 hj
      rw [List.mem_range] at hr
      constructor
      · have := row_le (k := cw) hr
        rw [Nat.mul_comm cw ch]
        show row * cw * 3 + cw * 3 ≤ _
        omega
      · have := row_le (k := im.w) (show y + row < im.h by omega)
        rw [Nat.mul_comm im.w im.h]
        show ((y + row) * im.w + x) * 3 + cw * 3 ≤ _
        omega)
  refine ⟨m', by rw [e]; rfl, ?_⟩
  intro a b c ha hb hc
  show m' ((b * cw + a) * 3 + c) = im.data (((y + b) * im.w + (x + a)) * 3 + c)
  apply hv
  · refine ⟨_, List.mem_map.2 ⟨b, List.mem_range.2 hb, rfl⟩, ?_, ?_⟩
    · show b * cw * 3 ≤ _; omega
    · show _ < b * cw * 3 + cw * 3; omega
  · intro j hj h1 h2
    obtain ⟨row, hr, rfl⟩ := List.mem_map.1 hj
    have h1' : row * cw * 3 ≤ (b * cw + a) * 3 + c := h1
    have h2' : (b * cw + a) * 3 + c < row * cw * 3 + cw * 3 := h2
    have hrow : row = b := by
      have := seg_unique (n := cw) (a := b) (b := row) (x := a) (y := b * cw + a - row * cw) ha (by omega) (by omega)
      exact this.1.symm
    subst hrow
    show im.data (((y + row) * im.w + x) * 3 + ((row * cw + a) * 3 + c - row * cw * 3)) = _
    congr 1
    omega

theorem upto_eq {step k : Nat} (hs : 0 < step) : ∀ fuel i, k ≤ i + fuel →
    upto (k * step) step fuel (i * step) = (List.range' i (k - i)).map (· * step)
  | 0, i, h => by
    rw [show k - i = 0 by omega]; rfl
  | fuel + 1, i, h => by
    unfold upto
    by_cases hi : i < k
    · rw [if_pos (Nat.mul_lt_mul_of_pos_right hi hs), show i * step + step = (i + 1) * step by ring,
        upto_eq hs fuel (i + 1) (by omega), show k - i = (k - (i + 1)) + 1 by omega, List.range'_succ, List.map_cons]
    · rw [if_neg (by have : k * step ≤ i * step := Nat.mul_le_mul_right _ (by omega); omega), show k - i = 0 by omega]
      rfl

theorem upto_all {step k : Nat} (hs : 0 < step) : upto (k * step) step (k * step) 0 = (List.range k).map (· * step) := by
  have := upto_eq (k := k) hs (k * step) 0 (by have : k * 1 ≤ k * step := Nat.mul_le_mul_left _ hs
                                               omega)
  rw [Nat.zero_mul, Nat.sub_zero] at this
  rw [this, List.range_eq_range']

theorem choose_list {β : Type} {P : Nat → β → Prop} (h : ∀ i, ∃ b, P i b) : ∃ f : Nat → β, ∀ i, P i (f i) :=
  ⟨fun i => Classical.choose (h i), fun i => Classical.choose_spec (h i)⟩

/-- Cutting an image whose size is a multiple of the grid. -/
theorem split_spec {β : Type} {im : Img β} {fresh : Mem β} {g : Nat × Nat} {bw bh : Nat} (hbw : 0 < bw) (hbh : 0 < bh)
    (hg1 : 0 < g.1) (hg2 : 0 < g.2) (hw : im.w = bw * g.1) (hh : im.h = bh * g.2) :
    ∃ t : Nat → Nat → Img β, splitPatches im fresh g = some ((List.range g.2).map fun r => (List.range g.1).map (t r)) ∧
      ∀ r c, r < g.2 → c < g.1 → (t r c).w = bw ∧ (t r c).h = bh ∧
        ∀ x y ch, x < bw → y < bh → ch < 3 → (t r c).px x y ch = im.px (c * bw + x) (r * bh + y) ch := by
  have e1 : im.w / g.1 = bw := by rw [hw]; exact Nat.mul_div_cancel _ hg1
  have e2 : im.h / g.2 = bh := by rw [hh]; exact Nat.mul_div_cancel _ hg2
  have u1 : upto im.h bh im.h 0 = (List.range g.2).map (· * bh) := by
    rw [hh, Nat.mul_comm]; exact upto_all hbh
  have u2 : upto im.w bw im.w 0 = (List.range g.1).map (· * bw) := by
    rw [hw, Nat.mul_comm]; exact upto_all hbw
  have key : ∀ r c, ∃ q : Img β, r < g.2 → c < g.1 →
      crop im fresh (c * bw) (r * bh) (min bw (im.w - c * bw)) (min bh (im.h - r * bh)) = some q ∧ q.w = bw ∧ q.h = bh ∧
        ∀ x y ch, x < bw → y < bh → ch < 3 → q.px x y ch = im.px (c * bw + x) (r * bh + y) ch := by
    intro r c
    by_cases hrc : r < g.2 ∧ c < g.1
    · have h1 := row_le (k := bw) hrc.2
      have h2 := row_le (k := bh) hrc.1
      rw [Nat.mul_comm g.1, ← hw] at h1
      rw [Nat.mul_comm g.2, ← hh] at h2
      rw [show min bw (im.w - c * bw) = bw by omega, show min bh (im.h - r * bh) = bh by omega]
      obtain ⟨d, hd, hp⟩ := crop_spec (im := im) (fresh := fresh) h1 h2 hbw hbh
      exact ⟨_, fun _ _ => ⟨hd, rfl, rfl, hp⟩⟩
    · exact ⟨im, fun h1 h2 => absurd ⟨h1, h2⟩ hrc⟩
  refine ⟨fun r c => Classical.choose (key r c), ?_, fun r c hr hc => ?_⟩
  · unfold splitPatches
    simp only [e1, e2, u1, u2]
    rw [List.mapM_map, Verif.Shard.mapM_all (g := fun r => (List.range g.1).map fun c => Classical.choose (key r c))]
    intro r hr
    rw [List.mem_range] at hr
    show ((List.range g.1).map (· * bw)).mapM _ = _
    rw [List.mapM_map, Verif.Shard.mapM_all (g := fun c => Classical.choose (key r c))]
    intro c hc
    rw [List.mem_range] at hc
    exact (Classical.choose_spec (key r c) hr hc).1
  · exact (Classical.choose_spec (key r c) hr hc).2

theorem flatten_get {β : Type} {R C : Nat} (t : Nat → Nat → β) {r c : Nat} (hr : r < R) (hc : c < C) :
    ((List.range R).map fun r => (List.range C).map (t r)).flatten[r * C + c]? = some (t r c) := by
  induction R with
  | zero => omega
  | succ R ih =>
    rw [List.range_succ, List.map_append, List.flatten_append]
    have hlen : ((List.range R).map fun r => (List.range C).map (t r)).flatten.length = R * C := by
      simp [List.length_flatten, Function.comp_def]
    by_cases h : r < R
    · have := row_le (k := C) h
      rw [List.getElem?_append_left (by rw [hlen]; omega)]
      exact ih h
    · have : r = R := by omega
      subst this
      rw [List.getElem?_append_right (by rw [hlen]; omega), hlen]
      simp [hc]

/-! ## Grids -/

theorem pick_spec (err : Nat × Nat → Int) : ∀ (gs : List (Nat × Nat)) (b : Nat × Nat) (e : Option Int),
    (e = none ∨ e = some (err b)) →
    ∃ b', pickGrid err gs (b, e) = (b', if gs = [] then e else some (err b')) ∧
      (b' = b ∨ b' ∈ gs) ∧ (gs ≠ [] → e = none → b' ∈ gs) ∧ (∀ g ∈ gs, err b' ≤ err g) ∧
      (∀ v, e = some v → err b' ≤ v)
  | [], b, e, he => ⟨b, by simp [pickGrid], Or.inl rfl, fun h => absurd rfl h, (by simp), by
      intro v hv; rcases he with h | h <;> rw [h] at hv
      · cases hv
      · cases hv; exact le_refl _⟩
  | g :: gs, b, e, he => by
    unfold pickGrid
    by_cases hc : e.all (fun e => decide (err g < e)) = true
    · rw [if_pos hc]
      obtain ⟨b', h1, h2, h3, h4, h5⟩ := pick_spec err gs g (some (err g)) (Or.inr rfl)
      have hbg : err b' ≤ err g := h5 _ rfl
      refine ⟨b', ?_, ?_, ?_, ?_, ?_⟩
      · rw [h1]
        by_cases hg : gs = []
        · rcases h2 with rfl | h2
          · simp [hg]
          · rw [hg] at h2; cases h2
        · simp [hg]
      · rcases h2 with rfl | h2
        · exact Or.inr List.mem_cons_self
        · exact Or.inr (List.mem_cons_of_mem _ h2)
      · intro _ _
        rcases h2 with rfl | h2
        · exact List.mem_cons_self
        · exact List.mem_cons_of_mem _ h2
      · intro k hk
        rcases List.mem_cons.1 hk with rfl | hk
        · exact hbg
        · exact h4 k hk
      · intro v hv
        rw [hv] at hc
        have : err g < v := by simpa using hc
        omega
    · rw [if_neg hc]
      obtain ⟨b', h1, h2, h3, h4, h5⟩ := pick_spec err gs b e he
      have hen : ∃ v, e = some v ∧ v ≤ err g := by
        cases e with
        | none => exact absurd rfl hc
        | some v => exact ⟨v, rfl, by simpa using hc⟩
      obtain ⟨v, hv, hvg⟩ := hen
      have hb : err b = v := by
        rcases he with h | h
        · rw [h] at hv; cases hv
        · rw [h] at hv; cases hv; rfl
      refine ⟨b', ?_, ?_, ?_, ?_, h5⟩
      · rw [h1]
        by_cases hg : gs = []
        · rcases h2 with rfl | h2
          · simp [hg, hv, hb]
          · rw [hg] at h2; cases h2
        · simp [hg]
      · rcases h2 with h2 | h2
        · exact Or.inl h2
        · exact Or.inr (List.mem_cons_of_mem _ h2)
      · intro _ h; rw [h] at hv; cases hv
      · intro k hk
        rcases List.mem_cons.1 hk with rfl | hk
        · exact le_trans (h5 v hv) hvg
        · exact h4 k hk

theorem mem_candGrids {maxS mult : Nat} {g : Nat × Nat} :
    g ∈ candGrids maxS mult ↔ 0 < g.1 ∧ 1 < g.1 * g.2 ∧ g.1 * g.2 ≤ maxS ∧
      (g.1 * g.2 = mult - 1 ∨ g.1 * g.2 = mult ∨ g.1 * g.2 = mult + 1) := by
  unfold candGrids candNums
  simp only [List.mem_flatMap, List.mem_filter, List.mem_cons, List.not_mem_nil, or_false, decide_eq_true_eq,
    List.mem_filterMap, List.mem_map, List.mem_range]
  constructor
  · rintro ⟨s, ⟨hs, h1, h2⟩, m, ⟨m', hm', rfl⟩, hif⟩
    split_ifs at hif with hd
    cases hif
    have : (m' + 1) * (s / (m' + 1)) = s := Nat.mul_div_cancel' (Nat.dvd_of_mod_eq_zero hd)
    show 0 < m' + 1 ∧ 1 < (m' + 1) * (s / (m' + 1)) ∧ _
    refine ⟨by omega, ?_, ?_, ?_⟩ <;> simp only [this] <;> omega
  · rintro ⟨h0, h1, h2, h3⟩
    have hg2 : 0 < g.2 := by
      rcases Nat.eq_zero_or_pos g.2 with h | h
      · rw [h] at h1; omega
      · exact h
    have hle : g.1 * 1 ≤ g.1 * g.2 := Nat.mul_le_mul_left _ hg2
    refine ⟨g.1 * g.2, ⟨h3, h1, h2⟩, g.1, ⟨g.1 - 1, by omega, by omega⟩, ?_⟩
    rw [if_pos (Nat.mul_mod_right _ _), Nat.mul_div_cancel_left _ h0]

end Verif.Slice
