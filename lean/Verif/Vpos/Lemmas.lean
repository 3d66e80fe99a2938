import Verif.Vpos.Spec
import Mathlib.Data.List.GetD

namespace Verif.Vpos

theorem range_mul {α : Type} (a n : Nat) (f : Nat → α) : (List.range (a * n)).map f = (List.range a).flatMap fun i => (List.range n).map fun j => f (i * n + j) := by
  induction a with
  | zero => simp
  | succ a ih =>
    rw [Nat.succ_mul, List.range_add, List.map_append, ih, List.range_succ, List.flatMap_append]
    simp

theorem columns_eq (v : Ver) (ms : Nat) (g : Grid) (c : Nat) : columns (imgRows v ms g c) = patches v ms g c := by
  have key : ∀ F : Nat → Nat, (List.range (g.num ms)).map (fun k => (⟨F (k / (g.gh ms * g.gw ms)), c + k / g.gw ms % g.gh ms, c + k % g.gw ms⟩ : Pos)) =
      (List.range g.t).flatMap fun f => (List.range (g.gh ms)).flatMap fun r => (List.range (g.gw ms)).map fun x => ⟨F f, c + r, c + x⟩ := by
    intro F
    rw [Grid.num, Nat.mul_assoc, range_mul]
    refine List.flatMap_congr fun f _ => ?_
    rw [range_mul]
    refine List.flatMap_congr fun r hr => List.map_congr_left fun x hx => ?_
    have hr := List.mem_range.1 hr
    have hx := List.mem_range.1 hx
    have h1 : r * g.gw ms + x < g.gh ms * g.gw ms := by
      have : (r + 1) * g.gw ms ≤ g.gh ms * g.gw ms := Nat.mul_le_mul_right _ hr
      rw [Nat.succ_mul] at this; omega
    have e1 : (f * (g.gh ms * g.gw ms) + (r * g.gw ms + x)) / (g.gh ms * g.gw ms) = f := by
      rw [Nat.add_comm, Nat.add_mul_div_right _ _ (by omega), Nat.div_eq_of_lt h1]; omega
    have e2 : (f * (g.gh ms * g.gw ms) + (r * g.gw ms + x)) / g.gw ms = f * g.gh ms + r := by
      rw [show f * (g.gh ms * g.gw ms) + (r * g.gw ms + x) = x + (f * g.gh ms + r) * g.gw ms by ring, Nat.add_mul_div_right _ _ (by omega),
        Nat.div_eq_of_lt hx]; omega
    have e3 : (f * (g.gh ms * g.gw ms) + (r * g.gw ms + x)) % g.gw ms = x := by
      rw [show f * (g.gh ms * g.gw ms) + (r * g.gw ms + x) = x + (f * g.gh ms + r) * g.gw ms by ring, Nat.add_mul_mod_self_right, Nat.mod_eq_of_lt hx]
    have e4 : (f * g.gh ms + r) % g.gh ms = r := by rw [Nat.add_comm, Nat.add_mul_mod_self_right, Nat.mod_eq_of_lt hr]
    rw [e1, e2, e3, e4]
  cases v
  · simp only [columns, imgRows, List.length_map, List.length_range]
    refine Eq.trans (List.map_congr_left fun k hk => ?_) (key fun f => c + f)
    have hk := List.mem_range.1 hk
    simp [hk, Nat.add_comm]
  · simp only [columns, imgRows, List.length_replicate]
    refine Eq.trans (List.map_congr_left fun k hk => ?_) (key fun _ => c + 0)
    have hk := List.mem_range.1 hk
    have h1 : k < g.gh ms * g.gw ms * g.t := by rw [Grid.num, Nat.mul_assoc, Nat.mul_comm] at hk; exact hk
    have h2 : k < g.gw ms * (g.gh ms * g.t) := by rw [show g.gw ms * (g.gh ms * g.t) = g.gh ms * g.gw ms * g.t by ring]; exact h1
    have h3 : 0 < g.gh ms * g.gw ms := Nat.pos_of_ne_zero fun h => by rw [h] at h1; omega
    have h4 : 0 < g.gw ms := Nat.pos_of_mul_pos_left h3
    have h5 : k % (g.gh ms * g.gw ms) < g.gh ms * g.gw ms := Nat.mod_lt _ h3
    have h6 : k % (g.gh ms * g.gw ms) / g.gw ms = k / g.gw ms % g.gh ms := by rw [Nat.mul_comm, Nat.mod_mul_right_div_self]
    have h7 : k % (g.gh ms * g.gw ms) / g.gw ms < g.gh ms := by rw [Nat.div_lt_iff_lt_mul h4]; exact h5
    have h8 : k % g.gw ms < g.gw ms := Nat.mod_lt _ h4
    have a1 : ((repeatL (repeatInterleave (List.range (g.gh ms)) (g.gw ms)) g.t).map (· + c)).getD k 0 = c + k / g.gw ms % g.gh ms := by
      rw [List.getD_eq_getElem _ _ (by simpa [repeatL, repeatInterleave] using h1)]
      simp only [repeatL, repeatInterleave, List.length_map, List.length_range, List.getElem_map, List.getElem_range]
      rw [List.getD_eq_getElem _ _ (by simpa using h5)]
      simp only [List.getElem_map, List.getElem_range]
      rw [List.getD_eq_getElem _ _ (by simpa using h7), List.getElem_range, h6, Nat.add_comm]
    have a2 : ((repeatL (List.range (g.gw ms)) (g.gh ms * g.t)).map (· + c)).getD k 0 = c + k % g.gw ms := by
      rw [List.getD_eq_getElem _ _ (by simpa [repeatL] using h2)]
      simp only [repeatL, List.length_range, List.getElem_map, List.getElem_range]
      rw [List.getD_eq_getElem _ _ (by simpa using h8), List.getElem_range, Nat.add_comm]
    rw [a1, a2, List.getD_eq_getElem _ _ (by simpa using hk), List.getElem_replicate]
    rfl

theorem length_patches (v : Ver) (ms : Nat) (g : Grid) (c : Nat) : (patches v ms g c).length = patchCount ms g := by
  simp only [patches, List.length_flatMap, List.length_map, List.length_range, List.map_const', List.sum_replicate, patchCount]
  simp [Nat.mul_assoc]

theorem length_specPos (v : Ver) (ms vs im : Nat) (l : List Seg) (p : Nat) : (specPos v ms l p).length = (render ms vs im l).length := by
  induction l generalizing p with
  | nil => rfl
  | cons s l ih =>
    cases s with
    | tok id => simp only [specPos, List.length_cons, ih, render, List.flatMap_cons, List.length_append, Seg.render]; simp; omega
    | img g =>
      simp only [specPos, List.length_cons, List.length_append, ih, length_patches, render, List.flatMap_cons, Seg.render, List.length_replicate]

theorem loop_nil (v : Ver) (ms vs : Nat) (ids : List Nat) (cur : Nat) :
    loop v ms vs ids [] cur = some ((List.range ids.length).map fun i => Pos.text (cur + i), cur + ids.length) := by
  induction ids generalizing cur with
  | nil => simp [loop]
  | cons id ids ih =>
    rw [loop, ih]
    simp only [Option.map_some, List.length_cons, List.range_succ_eq_map, List.map_cons, List.map_map]
    congr 2
    · congr 1
      refine List.map_congr_left fun i _ => ?_
      simp only [Function.comp]; congr 1; omega
    · omega

theorem loop_render (v : Ver) (ms vs im : Nat) (l : List Seg) (hw : WF vs im l) (rest : List Nat) (gs : List Grid) (cur : Nat) :
    loop v ms vs (render ms vs im l ++ rest) (grids l ++ gs) cur =
      (loop v ms vs rest gs (endPos v ms l cur)).map fun r => (specPos v ms l cur ++ r.1, r.2) := by
  induction l generalizing cur with
  | nil => simp [render, grids, endPos, specPos]
  | cons s l ih =>
    have hw' : WF vs im l := ⟨hw.1, fun id h => hw.2 id (List.mem_cons_of_mem _ h)⟩
    cases s with
    | tok id =>
      have hid : id ≠ vs := (hw.2 id List.mem_cons_self).1
      have e1 : render ms vs im (.tok id :: l) ++ rest = id :: (render ms vs im l ++ rest) := by simp [render, Seg.render]
      have e2 : grids (.tok id :: l) ++ gs = grids l ++ gs := by simp [grids]
      have e3 : endPos v ms (.tok id :: l) cur = endPos v ms l (cur + 1) := by simp [endPos, Seg.width]; omega
      rw [e1, e2, e3, specPos]
      have : loop v ms vs (id :: (render ms vs im l ++ rest)) (grids l ++ gs) cur =
          (loop v ms vs (render ms vs im l ++ rest) (grids l ++ gs) (cur + 1)).map fun r => (Pos.text cur :: r.1, r.2) := by
        rw [loop.eq_def]
        generalize grids l ++ gs = G
        cases G with
        | nil => rfl
        | cons g G => simp only [if_neg hid]
      rw [this, ih hw', Option.map_map]
      rfl
    | img g =>
      have e1 : render ms vs im (.img g :: l) ++ rest = vs :: (List.replicate (g.num ms) im ++ (render ms vs im l ++ rest)) := by
        simp [render, Seg.render, patchCount, Grid.num, Grid.gh, Grid.gw]
      have e2 : grids (.img g :: l) ++ gs = g :: (grids l ++ gs) := by simp [grids]
      have e4 : cur + Seg.width v ms (.img g) = cur + 1 + advance v ms g := by
        cases v <;> simp [Seg.width, advance, Grid.gh, Grid.gw] <;> omega
      have e3 : endPos v ms (.img g :: l) cur = endPos v ms l (cur + 1 + advance v ms g) := by
        rw [← e4]; simp [endPos]; omega
      rw [e1, e2, e3, specPos, loop, if_pos rfl, if_pos (by simp), List.drop_left' (by simp), ih hw', Option.map_map, e4, columns_eq]
      congr 1
      funext r
      simp [Pos.text]

theorem endPos_append (v : Ver) (ms : Nat) (a b : List Seg) (p : Nat) : endPos v ms (a ++ b) p = endPos v ms b (endPos v ms a p) := by
  simp [endPos]; omega

theorem specPos_append (v : Ver) (ms : Nat) (a b : List Seg) (p : Nat) : specPos v ms (a ++ b) p = specPos v ms a p ++ specPos v ms b (endPos v ms a p) := by
  induction a generalizing p with
  | nil => simp [specPos, endPos]
  | cons s a ih =>
    cases s with
    | tok id => simp only [List.cons_append, specPos, ih, endPos, List.map_cons, List.sum_cons, Seg.width, Nat.add_assoc]
    | img g => simp only [List.cons_append, List.append_assoc, specPos, ih, endPos, List.map_cons, List.sum_cons, Nat.add_assoc]

theorem mem_patches (v : Ver) (ms : Nat) (g : Grid) (p : Nat) (q : Pos) (h : q ∈ patches v ms g p) :
    (p ≤ q.t ∧ p ≤ q.h ∧ p ≤ q.w) ∧ q.t + 1 < p + Seg.width v ms (.img g) ∧ q.h + 1 < p + Seg.width v ms (.img g) ∧ q.w + 1 < p + Seg.width v ms (.img g) := by
  simp only [patches, List.mem_flatMap, List.mem_map, List.mem_range] at h
  obtain ⟨f, hf, r, hr, c, hc, rfl⟩ := h
  cases v <;> simp only [Seg.width] <;> omega

theorem specPos_bounds (v : Ver) (ms : Nat) (l : List Seg) (p : Nat) (q : Pos) (h : q ∈ specPos v ms l p) :
    (p ≤ q.t ∧ p ≤ q.h ∧ p ≤ q.w) ∧ q.t < endPos v ms l p ∧ q.h < endPos v ms l p ∧ q.w < endPos v ms l p := by
  induction l generalizing p with
  | nil => cases h
  | cons s l ih =>
    have e : endPos v ms (s :: l) p = endPos v ms l (p + Seg.width v ms s) := by simp [endPos]; omega
    have hge : ∀ x, x ≤ endPos v ms l x := fun x => by simp [endPos]
    rw [e]
    have hg := hge (p + Seg.width v ms s)
    cases s with
    | tok id =>
      rw [specPos] at h
      rcases List.mem_cons.1 h with rfl | h
      · simp only [Seg.width] at hg ⊢; omega
      · have := ih _ h; simp only [Seg.width]; omega
    | img g =>
      rw [specPos] at h
      have hw : 1 ≤ Seg.width v ms (.img g) := by simp [Seg.width]
      rcases List.mem_append.1 h with h | h
      · rcases List.mem_cons.1 h with rfl | h
        · dsimp only; omega
        · have := mem_patches v ms g _ q h; omega
      · have := ih _ h; omega

theorem rope_spec (v : Ver) (ms vs im : Nat) (hms : 0 < ms) (l : List Seg) (hw : WF vs im l) (out : List Nat) (start : Nat) :
    ropeIndex v ms vs (render ms vs im l ++ out) (some (grids l)) start =
      some (specPos v ms l (firstPos v start) ++ (List.range out.length).map (fun i => Pos.text (endPos v ms l (firstPos v start) + i)),
        (endPos v ms l (firstPos v start) : Int) - firstPos v start - (render ms vs im l).length) := by
  have H : ∀ st : Nat, loop v ms vs (render ms vs im l ++ out) (grids l) st =
      some (specPos v ms l st ++ (List.range out.length).map (fun i => Pos.text (endPos v ms l st + i)), endPos v ms l st + out.length) := by
    intro st
    have := loop_render v ms vs im l hw out [] st
    rw [List.append_nil] at this
    rw [this, loop_nil]; rfl
  simp only [ropeIndex]
  generalize firstPos v start = st
  have H := H st
  cases hg : grids l with
  | nil =>
    rw [hg, loop_nil] at H
    simp only [Option.some.injEq, Prod.mk.injEq] at H ⊢
    obtain ⟨h1, h2⟩ := H
    refine ⟨?_, ?_⟩
    · rw [← h1]; exact List.map_congr_left fun i _ => by rw [Nat.add_comm]
    · rw [List.length_append] at h2; omega
  | cons g gs =>
    dsimp only
    rw [if_neg (by omega), ← hg, H]
    simp only [Option.map_some, List.length_append, Nat.cast_add]
    congr 2
    omega

end Verif.Vpos
