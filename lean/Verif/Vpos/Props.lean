import Verif.Vpos.Lemmas

namespace Verif.Vpos

/-- **C185**: the positions of a prompt of text and images, fresh or after a cached part, are those of the specification, and the delta is
the difference between the positions taken and the tokens. -/
theorem C185_positions (v : Ver) (ms vs im : Nat) (hms : 0 < ms) (l : List Seg) (hw : WF vs im l) (start : Nat) :
    ropeIndex v ms vs (render ms vs im l) (some (grids l)) start =
      some (specPos v ms l (firstPos v start), (endPos v ms l (firstPos v start) : Int) - firstPos v start - (render ms vs im l).length) := by
  have := rope_spec v ms vs im hms l hw [] start
  simpa using this

/-- **C185**, text: without images the positions count on from the start and the delta is 0, whatever the tokens. -/
theorem C185_text (v : Ver) (ms vs : Nat) (ids : List Nat) (start : Nat) :
    ropeIndex v ms vs ids none start = some ((List.range ids.length).map (fun i => ⟨i + firstPos v start, i + firstPos v start, i + firstPos v start⟩), 0) ∧
    ropeIndex v ms vs ids (some []) start = ropeIndex v ms vs ids none start := ⟨rfl, rfl⟩

/-- **C185**, order: one position for each token, and whatever comes later in the prompt has larger positions, in each dimension. -/
theorem C185_order (v : Ver) (ms vs im : Nat) (hms : 0 < ms) (a b : List Seg) (hw : WF vs im (a ++ b)) (start : Nat) :
    ∃ pa pb d, ropeIndex v ms vs (render ms vs im a ++ render ms vs im b) (some (grids (a ++ b))) start = some (pa ++ pb, d) ∧
      pa.length = (render ms vs im a).length ∧ pb.length = (render ms vs im b).length ∧
      ∀ q ∈ pa, ∀ q' ∈ pb, max q.t (max q.h q.w) < min q'.t (min q'.h q'.w) := by
  have h := C185_positions v ms vs im hms (a ++ b) hw start
  rw [specPos_append] at h
  have e : render ms vs im (a ++ b) = render ms vs im a ++ render ms vs im b := by simp [render]
  rw [e] at h
  refine ⟨_, _, _, h, length_specPos .., length_specPos .., fun q hq q' hq' => ?_⟩
  have h1 := specPos_bounds v ms a _ q hq
  have h2 := specPos_bounds v ms b _ q' hq'
  omega

theorem nodup_patches (v : Ver) (ms : Nat) (g : Grid) (p : Nat) (h : v = .q5 → g.t ≤ 1) : (patches v ms g p).Nodup := by
  rw [patches, List.nodup_flatMap]
  refine ⟨fun f _ => ?_, ?_⟩
  · rw [List.nodup_flatMap]
    refine ⟨fun r _ => ?_, ?_⟩
    · refine List.Nodup.map (fun a b hab => ?_) List.nodup_range
      simp only [Pos.mk.injEq] at hab; omega
    · refine List.Pairwise.imp_of_mem ?_ (List.nodup_range (n := g.h / ms))
      intro r r' _ _ hne q h1 h2
      obtain ⟨c, -, rfl⟩ := List.mem_map.1 h1
      obtain ⟨c', -, e⟩ := List.mem_map.1 h2
      simp only [Pos.mk.injEq] at e
      exact hne (by omega)
  · refine List.Pairwise.imp_of_mem ?_ (List.nodup_range (n := g.t))
    intro f f' hf hf' hne q h1 h2
    have hf := List.mem_range.1 hf
    have hf' := List.mem_range.1 hf'
    simp only [List.mem_flatMap, List.mem_map, List.mem_range] at h1 h2
    obtain ⟨r, -, c, -, rfl⟩ := h1
    obtain ⟨r', -, c', -, e⟩ := h2
    simp only [Pos.mk.injEq] at e
    cases v with
    | vl => exact hne (by simpa using e.1.symm)
    | q5 => have := h rfl; exact hne (by omega)

/-- **C185**, no two tokens of a prompt share their three positions: always for Qwen3-VL, and for Qwen3.5 when every image has at most one
frame. -/
theorem C185_distinct_partial (v : Ver) (ms vs im : Nat) (hms : 0 < ms) (l : List Seg) (hw : WF vs im l) (start : Nat)
    (h : v = .q5 → ∀ g ∈ grids l, g.t ≤ 1) :
    ∃ ps d, ropeIndex v ms vs (render ms vs im l) (some (grids l)) start = some (ps, d) ∧ ps.Nodup := by
  refine ⟨_, _, C185_positions v ms vs im hms l hw start, ?_⟩
  generalize firstPos v start = p
  clear hw
  induction l generalizing p with
  | nil => exact List.nodup_nil
  | cons s l ih =>
    cases s with
    | tok id =>
      rw [specPos, List.nodup_cons]
      refine ⟨fun hm => ?_, ih (fun hv g hg => h hv g (by simpa [grids] using hg)) _⟩
      have := specPos_bounds v ms l _ _ hm
      dsimp only at this
      omega
    | img g =>
      have hg : v = .q5 → g.t ≤ 1 := fun hv => h hv g (by simp [grids])
      have hl := ih (fun hv g' hg' => h hv g' (by simp only [grids, List.filterMap_cons, List.mem_cons]; exact Or.inr hg'))
      rw [specPos, List.cons_append, List.nodup_cons]
      have hw : 1 ≤ Seg.width v ms (.img g) := by simp [Seg.width]
      refine ⟨fun hm => ?_, List.nodup_append.2 ⟨nodup_patches v ms g _ hg, hl _, ?_⟩⟩
      · rcases List.mem_append.1 hm with hm | hm
        · have := mem_patches v ms g _ _ hm; dsimp only at this; omega
        · have := specPos_bounds v ms l _ _ hm; dsimp only at this; omega
      · intro q hq q' hq' e
        subst e
        have h1 := mem_patches v ms g _ _ hq
        have h2 := specPos_bounds v ms l _ _ hq'
        omega

/-- **C185 is violated** by Qwen3.5 for more frames: the patches of all frames get the same positions, so frames cannot be told apart. -/
theorem C185_distinct_violated (ms vs im : Nat) (hms : 0 < ms) (g : Grid) (hw : im ≠ vs) (start : Nat) (ht : 2 ≤ g.t) (hh : ms ≤ g.h) (hww : ms ≤ g.w) :
    ∃ ps d, ropeIndex .q5 ms vs (render ms vs im [.img g]) (some [g]) start = some (ps, d) ∧ ¬ ps.Nodup := by
  have h := C185_positions .q5 ms vs im hms [.img g] ⟨hw, by simp⟩ start
  refine ⟨_, _, h, fun hn => ?_⟩
  rw [specPos, List.cons_append, List.nodup_cons] at hn
  have hn := (List.nodup_append.1 hn.2).1
  rw [patches, List.nodup_flatMap] at hn
  have h1 : 1 ≤ g.h / ms := (Nat.le_div_iff_mul_le hms).2 (by omega)
  have h2 : 1 ≤ g.w / ms := (Nat.le_div_iff_mul_le hms).2 (by omega)
  have := List.pairwise_iff_getElem.1 hn.2 0 1 (by simp; omega) (by simp; omega) (by omega)
  simp only [Function.onFun, List.getElem_range] at this
  refine this (a := ⟨firstPos .q5 start + 1, firstPos .q5 start + 1, firstPos .q5 start + 1⟩) ?_ ?_ <;>
  · simp only [List.mem_flatMap, List.mem_map, List.mem_range]
    exact ⟨0, by omega, 0, by omega, by simp⟩

/-- **C186**: decoding goes on where the prompt stopped.  For every list `out` of generated tokens, its `k`-th token, when the sequence is
`k + 1` tokens longer than the prompt, gets the position it would have had as a part of the prompt; the delta would be the same.
`p` tokens were cached (for Qwen3-VL: none). -/
theorem C186_decode (v : Ver) (ms vs im : Nat) (hms : 0 < ms) (l : List Seg) (hw : WF vs im l) (out : List Nat) (p : Nat) (hp : v = .vl → p = 0) :
    ∃ ps d, ropeIndex v ms vs (render ms vs im l) (some (grids l)) p = some (ps, d) ∧
      ∃ qs : List Nat, qs.length = out.length ∧
        ropeIndex v ms vs (render ms vs im l ++ out) (some (grids l)) p = some (ps ++ qs.map Pos.text, d) ∧
        ∀ k (hk : k < qs.length), decodePos (p + (render ms vs im l).length + k + 1) d = qs[k] := by
  refine ⟨_, _, C185_positions v ms vs im hms l hw p, (List.range out.length).map (fun i => endPos v ms l (firstPos v p) + i), by simp, ?_, ?_⟩
  · rw [rope_spec v ms vs im hms l hw out p, List.map_map]; rfl
  · intro k hk
    have e : firstPos v p = p := by
      cases v
      · simp [firstPos, hp rfl]
      · rfl
    simp only [e, List.getElem_map, List.getElem_range, decodePos]
    push_cast
    omega

/-- **C186**: a generated token's position is larger than all positions of the prompt. -/
theorem C186_fresh (v : Ver) (ms vs im : Nat) (hms : 0 < ms) (l : List Seg) (hw : WF vs im l) (p : Nat) (hp : v = .vl → p = 0) :
    ∃ ps d, ropeIndex v ms vs (render ms vs im l) (some (grids l)) p = some (ps, d) ∧
      ∀ k, ∀ q ∈ ps, (max q.t (max q.h q.w) : Int) < decodePos (p + (render ms vs im l).length + k + 1) d := by
  refine ⟨_, _, C185_positions v ms vs im hms l hw p, fun k q hq => ?_⟩
  have e : firstPos v p = p := by
    cases v
    · simp [firstPos, hp rfl]
    · rfl
  rw [e] at hq ⊢
  have := specPos_bounds v ms l p q hq
  simp only [decodePos]
  omega

theorem count_render (ms vs im : Nat) (l : List Seg) (hw : WF vs im l) :
    (render ms vs im l).count vs = (grids l).length ∧ (render ms vs im l).count im = ((grids l).map fun g => g.num ms).sum := by
  induction l with
  | nil => simp [render, grids]
  | cons s l ih =>
    have ih := ih ⟨hw.1, fun id h => hw.2 id (List.mem_cons_of_mem _ h)⟩
    cases s with
    | tok id =>
      have := hw.2 id List.mem_cons_self
      have e1 : render ms vs im (.tok id :: l) = id :: render ms vs im l := by simp [render, Seg.render]
      have e2 : grids (.tok id :: l) = grids l := by simp [grids]
      rw [e1, e2, List.count_cons_of_ne this.1, List.count_cons_of_ne this.2]
      exact ih
    | img g =>
      have e1 : render ms vs im (.img g :: l) = vs :: (List.replicate (g.num ms) im ++ render ms vs im l) := by
        simp [render, Seg.render, patchCount, Grid.num, Grid.gh, Grid.gw]
      have e2 : grids (.img g :: l) = g :: grids l := by simp [grids]
      rw [e1, e2]
      constructor
      · rw [List.count_cons_self, List.count_append, List.count_replicate, if_neg (by simpa using hw.1), ih.1]; simp
      · rw [List.count_cons_of_ne hw.1.symm, List.count_append, List.count_replicate_self, ih.2]; simp

theorem batch_aux (v : Ver) (ms vs im : Nat) (hms : 0 < ms) (rs : List (List Seg × Nat)) (hw : ∀ r ∈ rs, WF vs im r.1) (pre : List Grid) :
    extendBatch v ms vs (some (pre ++ rs.flatMap fun r => grids r.1)) (rs.map fun r => ⟨render ms vs im r.1, r.2⟩) pre.length =
      some (rs.map fun r => (specPos v ms r.1 (firstPos v r.2), (endPos v ms r.1 (firstPos v r.2) : Int) - firstPos v r.2 - (render ms vs im r.1).length)) := by
  induction rs generalizing pre with
  | nil => rfl
  | cons r rs ih =>
    have hr := hw r List.mem_cons_self
    have hc := (count_render ms vs im r.1 hr).1
    have h1 := C185_positions v ms vs im hms r.1 hr r.2
    have ih := ih (fun r h => hw r (List.mem_cons_of_mem _ h)) (pre ++ grids r.1)
    rw [List.append_assoc, List.length_append] at ih
    simp only [List.map_cons, List.flatMap_cons, extendBatch, hc]
    split_ifs with h
    · rw [List.drop_left, List.take_left, h1, ih]; rfl
    · have h0 : grids r.1 = [] := List.eq_nil_of_length_eq_zero (by omega)
      rw [h0] at h1
      have h2 := (C185_text v ms vs (render ms vs im r.1) r.2).2
      rw [← h2, h1]
      rw [h0] at ih ⊢
      simp only [List.nil_append, List.length_nil, Nat.add_zero] at ih ⊢
      rw [ih]; rfl

/-- **C187**: in a batch of well-formed requests each one gets the positions and the delta it would get alone. -/
theorem C187_batch_partial (v : Ver) (ms vs im : Nat) (hms : 0 < ms) (rs : List (List Seg × Nat)) (hw : ∀ r ∈ rs, WF vs im r.1) :
    extendBatch v ms vs (some (rs.flatMap fun r => grids r.1)) (rs.map fun r => ⟨render ms vs im r.1, r.2⟩) 0 =
      rs.mapM fun r => ropeIndex v ms vs (render ms vs im r.1) (some (grids r.1)) r.2 := by
  have h := batch_aux v ms vs im hms rs hw []
  simp only [List.nil_append, List.length_nil] at h
  rw [h]
  symm
  clear h
  induction rs with
  | nil => rfl
  | cons r rs ih =>
    rw [List.mapM_cons, C185_positions v ms vs im hms r.1 (hw r List.mem_cons_self) r.2, ih fun r h => hw r (List.mem_cons_of_mem _ h)]
    rfl

/-- **C187 is violated** when a request without an image contains the start-of-image token (a user can write it): it takes the grid of
the next request's image.  Each request alone is fine; together the step raises, for every image of two patches or more. -/
theorem C187_batch_violated (v : Ver) (ms vs im : Nat) (hms : 0 < ms) (hi : im ≠ vs) (g : Grid) (hg : 2 ≤ g.num ms) :
    (extendBatch v ms vs none [⟨[vs], 0⟩] 0).isSome ∧
    (extendBatch v ms vs (some [g]) [⟨render ms vs im [.img g], 0⟩] 0).isSome ∧
    extendBatch v ms vs (some [g]) [⟨[vs], 0⟩, ⟨render ms vs im [.img g], 0⟩] 0 = none := by
  refine ⟨rfl, ?_, ?_⟩
  · have := batch_aux v ms vs im hms [([.img g], 0)] (by simpa using ⟨hi, by simp⟩) []
    simp only [List.map_cons, List.map_nil, List.nil_append, List.length_nil, List.flatMap_cons, List.flatMap_nil, List.append_nil] at this
    have e : grids [.img g] = [g] := rfl
    rw [e] at this
    rw [this]; rfl
  · have : loop v ms vs [vs] [g] (firstPos v 0) = none := by
      rw [loop, if_pos rfl, if_neg (by simp; omega), if_neg (by omega)]
    simp [extendBatch, ropeIndex, this]

/-- **C188**, Qwen3.5: after a cached part without images (or whose images take as many positions as tokens) the rest of the prompt gets
the positions it has in the whole prompt, and so do the generated tokens. -/
theorem C188_prefix_partial (ms vs im : Nat) (hms : 0 < ms) (a b : List Seg) (hw : WF vs im (a ++ b))
    (ha : endPos .q5 ms a 0 = (render ms vs im a).length) :
    ∃ pa pb d d', ropeIndex .q5 ms vs (render ms vs im a ++ render ms vs im b) (some (grids (a ++ b))) 0 = some (pa ++ pb, d) ∧
      pa.length = (render ms vs im a).length ∧
      ropeIndex .q5 ms vs (render ms vs im b) (some (grids b)) (render ms vs im a).length = some (pb, d') ∧
      ∀ n, decodePos n d = decodePos n d' := by
  have h := C185_positions .q5 ms vs im hms (a ++ b) hw 0
  have h2 := C185_positions .q5 ms vs im hms b ⟨hw.1, fun id hid => hw.2 id (List.mem_append_right _ hid)⟩ (render ms vs im a).length
  have e : render ms vs im (a ++ b) = render ms vs im a ++ render ms vs im b := by simp [render]
  rw [specPos_append, endPos_append, e] at h
  simp only [firstPos, ha] at h h2
  refine ⟨_, _, _, _, h, length_specPos .., h2, fun n => ?_⟩
  simp only [decodePos, List.length_append]
  push_cast
  omega

/-- **C188 is violated** by Qwen3-VL: after any cached part the rest starts again at position 0, whereas it has larger positions in
the whole prompt. -/
theorem C188_prefix_vl_violated (ms vs im : Nat) (hms : 0 < ms) (a b : List Seg) (ha : a ≠ []) (hb : b ≠ []) (hw : WF vs im (a ++ b)) :
    ∃ pa pb d pb' d', ropeIndex .vl ms vs (render ms vs im a ++ render ms vs im b) (some (grids (a ++ b))) 0 = some (pa ++ pb, d) ∧
      pa.length = (render ms vs im a).length ∧
      ropeIndex .vl ms vs (render ms vs im b) (some (grids b)) (render ms vs im a).length = some (pb', d') ∧
      pb'.head? = some ⟨0, 0, 0⟩ ∧ pb.head? ≠ some ⟨0, 0, 0⟩ := by
  have h := C185_positions .vl ms vs im hms (a ++ b) hw 0
  have h2 := C185_positions .vl ms vs im hms b ⟨hw.1, fun id hid => hw.2 id (List.mem_append_right _ hid)⟩ (render ms vs im a).length
  have e : render ms vs im (a ++ b) = render ms vs im a ++ render ms vs im b := by simp [render]
  rw [specPos_append, e] at h
  have hh : ∀ p, (specPos .vl ms b p).head? = some ⟨p, p, p⟩ := by
    intro p
    cases b with
    | nil => exact absurd rfl hb
    | cons s b => cases s <;> rfl
  refine ⟨_, _, _, _, _, h, length_specPos .., h2, hh _, ?_⟩
  rw [hh]
  have : 0 < endPos .vl ms a (firstPos .vl 0) := by
    cases a with
    | nil => exact absurd rfl ha
    | cons s a => cases s <;> simp [endPos, Seg.width]
  simp only [ne_eq, Option.some.injEq, Pos.mk.injEq]
  omega

/-- **C188 is violated** by Qwen3.5 when the cached part has an image and takes another number of positions than of tokens (any
image of at least two rows and columns): the rest gets other positions than in the whole prompt. -/
theorem C188_prefix_q5_violated (ms vs im : Nat) (hms : 0 < ms) (a b : List Seg) (hb : b ≠ []) (hw : WF vs im (a ++ b))
    (ha : endPos .q5 ms a 0 ≠ (render ms vs im a).length) :
    ∃ pa pb d pb' d', ropeIndex .q5 ms vs (render ms vs im a ++ render ms vs im b) (some (grids (a ++ b))) 0 = some (pa ++ pb, d) ∧
      pa.length = (render ms vs im a).length ∧
      ropeIndex .q5 ms vs (render ms vs im b) (some (grids b)) (render ms vs im a).length = some (pb', d') ∧ pb' ≠ pb := by
  have h := C185_positions .q5 ms vs im hms (a ++ b) hw 0
  have h2 := C185_positions .q5 ms vs im hms b ⟨hw.1, fun id hid => hw.2 id (List.mem_append_right _ hid)⟩ (render ms vs im a).length
  have e : render ms vs im (a ++ b) = render ms vs im a ++ render ms vs im b := by simp [render]
  rw [specPos_append, e] at h
  refine ⟨_, _, _, _, _, h, length_specPos .., h2, fun hc => ?_⟩
  have hh : ∀ p, (specPos .q5 ms b p).head? = some ⟨p, p, p⟩ := by
    intro p
    cases b with
    | nil => exact absurd rfl hb
    | cons s b => cases s <;> rfl
  have := congrArg List.head? hc
  rw [hh, hh] at this
  simp only [firstPos, Option.some.injEq, Pos.mk.injEq] at this
  exact ha this.1.symm

/-- **C188**, features: a fresh prompt has as many placeholders as its images have features. -/
theorem C188_features (ms vs im : Nat) (l : List Seg) (hw : WF vs im l) : featuresMatch ms im (render ms vs im l) (grids l) = true := by
  simp [featuresMatch, (count_render ms vs im l hw).2]

/-- **C188 is violated**: sending the same prompt again, now fully in the radix cache, leaves its last two tokens to compute, but the
features of all its images are still compared with the placeholders in them.  Whenever the prompt ends with two ordinary tokens and
has a non-empty image, they differ (Qwen3-VL raises an error, Qwen3.5 logs a warning). -/
theorem C188_features_violated (ms vs im : Nat) (l : List Seg) (x y : Nat) (hw : WF vs im (l ++ [.tok x, .tok y])) (g : Grid) (hg : g ∈ grids l)
    (hn : 0 < g.num ms) :
    let ids := render ms vs im (l ++ [.tok x, .tok y])
    featuresMatch ms im (ids.drop (usedPrefix ids.length ids.length)) (grids (l ++ [.tok x, .tok y])) = false := by
  have e : render ms vs im (l ++ [.tok x, .tok y]) = render ms vs im l ++ [x, y] := by simp [render, Seg.render]
  have hx := hw.2 x (by simp)
  have hy := hw.2 y (by simp)
  simp only [e]
  have h2 : usedPrefix (render ms vs im l ++ [x, y]).length (render ms vs im l ++ [x, y]).length = (render ms vs im l).length := by
    simp [usedPrefix]
  rw [h2, List.drop_left]
  have hc : [x, y].count im = 0 := by
    rw [List.count_eq_zero]; simp only [List.mem_cons, List.not_mem_nil, or_false, not_or]; exact ⟨fun h => hx.2 h.symm, fun h => hy.2 h.symm⟩
  have e2 : grids (l ++ [.tok x, .tok y]) = grids l := by simp [grids]
  rw [featuresMatch, hc, e2]
  have : g.num ms ≤ ((grids l).map fun g => g.num ms).sum := List.single_le_sum (by simp) _ (List.mem_map.2 ⟨g, hg, rfl⟩)
  simp only [decide_eq_false_iff_not]
  omega

/-- The hypotheses are met: a token, an image of 4 by 6 patches merged two by two, two tokens. -/
example : WF 1 2 ([.tok 7] ++ [.img ⟨1, 4, 6⟩, .tok 8, .tok 9]) ∧ (render 2 1 2 [.tok 7, .img ⟨1, 4, 6⟩, .tok 8, .tok 9]).length = 10 ∧
    endPos .q5 2 [.tok 7, .img ⟨1, 4, 6⟩] 0 ≠ (render 2 1 2 [.tok 7, .img ⟨1, 4, 6⟩]).length ∧ 2 ≤ (⟨1, 4, 6⟩ : Grid).num 2 ∧
    specPos .vl 2 [.tok 7, .img ⟨1, 4, 6⟩, .tok 8] 0 = [⟨0, 0, 0⟩, ⟨1, 1, 1⟩, ⟨2, 2, 2⟩, ⟨2, 2, 3⟩, ⟨2, 2, 4⟩, ⟨2, 3, 2⟩, ⟨2, 3, 3⟩, ⟨2, 3, 4⟩, ⟨5, 5, 5⟩] := by
  refine ⟨⟨by decide, ?_⟩, by decide, by decide, by decide, by decide⟩
  intro id h
  simp only [List.cons_append, List.nil_append, List.mem_cons, Seg.tok.injEq, reduceCtorEq, List.not_mem_nil, or_false, false_or] at h
  omega

end Verif.Vpos
