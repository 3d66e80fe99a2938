import Verif.Bits.GemmTile
import Mathlib.Algebra.Order.BigOperators.Group.Finset
import Mathlib.Algebra.BigOperators.Ring.Finset
import Mathlib.Tactic.Linarith

/-!
# C166: the kernels compute the dequantised product
-/

namespace Verif.Bits

open scoped BigOperators

theorem tilePairs_reads {F : Type} (fl : Fl F) {c : Cfg} {w : Wt} (a : Act) {cd : Codec} (h : c.Ok) (hw : w.Ok c) (hl : w.LutOk c)
    (h16 : c.kr = 16) (h2 : c.sr = 2) (hev : 2 ∣ c.nr) (hk : 0 < w.k)
    (hcd : ∀ u : Nat → Byte, (∀ i, c.Fits (u i)) → Reads (blockW cd) (block cd u) [] fun y => ∀ i, i < c.kr * c.nr → y i = u i)
    (hfit : ∀ a, a < w.n * w.k → c.Fits (w.ints a)) (hasClamp : Bool) (i t : Nat) :
    Reads (tilePairs fl c.nr w.k w.gs cd c.lut w.zeros.isSome w.bias.isSome hasClamp (fl.load (a.scale i)) ((a.zero i).signExtend 32))
      (tileBytes c w cd (t * c.nr)) (actGroups a w i)
      fun r => ∀ j, j < c.nr → t * c.nr + j < w.n → r j = entry fl c w a hasClamp i (t * c.nr + j) := by
  have hg : 0 < w.groups := Nat.div_pos (Nat.le_of_dvd hk hw.k) hw.gs
  unfold tilePairs tileBytes
  rw [groups_core, List.append_assoc]
  cases hc : c.lut with
  | true =>
    rw [if_pos rfl, if_pos ⟨rfl, hg⟩, ← List.nil_append (actGroups a w i)]
    refine Reads.bind (Reads.bytesW 16 _) fun tt htt => ?_
    have := gemmTail_reads fl h hw hl hfit hasClamp i t (pairs_ok a h hw h16 h2 hev hcd hfit i (t * c.nr) tt (fun _ => htt))
    rw [lutOf, if_pos hc] at this
    exact this
  | false =>
    rw [if_neg (by simp), if_neg (by simp), List.nil_append]
    have := gemmTail_reads fl h hw hl hfit hasClamp i t (pairs_ok a h hw h16 h2 hev hcd hfit i (t * c.nr) (fun _ => 0) (by simp [hc]))
    rw [lutOf, if_neg (by simp [hc])] at this
    exact this

theorem tile1_reads {F : Type} (fl : Fl F) {c : Cfg} {w : Wt} (a : Act) {cd : Codec} (h : c.Ok) (hw : w.Ok c)
    (h32 : c.kr = 32) (h1 : c.nr = 1) (hl : c.lut = false)
    (hcd : ∀ u : Nat → Byte, (∀ i, c.Fits (u i)) → Reads (blockW cd) (block cd u) [] fun y => ∀ i, i < c.kr * c.nr → y i = u i)
    (hfit : ∀ a, a < w.n * w.k → c.Fits (w.ints a)) (hasClamp : Bool) (i t : Nat) (ht : t < w.n) :
    Reads (tile1 fl w.k w.gs cd w.zeros.isSome w.bias.isSome hasClamp (fl.load (a.scale i)) ((a.zero i).signExtend 32))
      (tileBytes c w cd (t * c.nr)) (actGroups a w i)
      fun r => ∀ j, j < c.nr → t * c.nr + j < w.n → r j = entry fl c w a hasClamp i (t * c.nr + j) := by
  unfold tile1 tileBytes
  rw [groups_core, List.append_assoc, if_neg (by simp [hl]), List.nil_append]
  have := gemmTail_reads fl h hw (fun e => by rw [hl] at e; cases e) hfit hasClamp i t
    (one_ok a h hw h32 h1 hl hcd hfit i (t * c.nr) (by rw [h1]; omega))
  rw [show gemmTail fl 1 = gemmTail fl c.nr by rw [h1]]
  exact this

/-- The lanes of a tile that are stored are exactly the columns that exist. -/
def StoredOk (nr : Nat) (stored : Nat → List Nat) : Prop := ∀ rem, 0 < rem → ∀ l, l ∈ stored rem ↔ l < nr ∧ l < rem

theorem stored8_ok : StoredOk 8 stored8 := by
  intro rem hr l
  unfold stored8
  split_ifs <;> simp <;> omega

theorem stored4_ok : StoredOk 4 stored4 := by
  intro rem hr l
  unfold stored4
  split_ifs <;> simp <;> omega

theorem stored1_ok : StoredOk 1 stored1 := by
  intro rem hr l
  simp [stored1]
  omega

theorem gemmCols_spec {F : Type} {c : Cfg} {w : Wt} {cd : Codec} (h : c.Ok) (hw : w.Ok c) (hb : 8 * cd.b = c.bits * (c.kr * c.nr)) (h8 : 8 ∣ w.k)
    {stored : Nat → List Nat} (hst : StoredOk c.nr stored) {tile : M (Nat → F)} {K : List Byte} {want : Nat → F}
    (htile : ∀ t, t * c.nr < w.n → Reads tile (tileBytes c w cd (t * c.nr)) K fun r => ∀ j, j < c.nr → t * c.nr + j < w.n → r j = want (t * c.nr + j))
    {W A : Mem} {p : Ptr} (hW : At W p.w ((List.range (steps w.n c.nr)).flatMap fun t => tileBytes c w cd (t * c.nr))) (hA : At A p.a K) :
    ∀ T, T ≤ steps w.n c.nr →
      (gemmCols c.nr w.n stored tile W A p T).2.w = p.w + T * tileSize c w ∧
      (0 < T → (gemmCols c.nr w.n stored tile W A p T).2.a = p.a + K.length) ∧
      ∀ j v, (j, v) ∈ (gemmCols c.nr w.n stored tile W A p T).1 ↔ j < T * c.nr ∧ j < w.n ∧ v = want j := by
  intro T
  induction T with
  | zero =>
    intro _
    refine ⟨by simp [gemmCols], by omega, fun j v => ?_⟩
    simp [gemmCols]
  | succ T ih =>
    intro hT
    obtain ⟨i1, -, i3⟩ := ih (by omega)
    have nr0 := h.nr_pos
    have hlt : T * c.nr < w.n := by
      have h1 : T + 1 ≤ (w.n + c.nr - 1) / c.nr := hT
      rw [Nat.le_div_iff_mul_le nr0, Nat.succ_mul] at h1
      omega
    have hat := tile_at h hw hb h8 hW T (by omega)
    rw [← i1] at hat
    obtain ⟨r1, r2⟩ := htile T hlt W A ⟨(gemmCols c.nr w.n stored tile W A p T).2.w, p.a⟩ hat hA
    simp only [gemmCols]
    refine ⟨?_, fun _ => ?_, fun j v => ?_⟩
    · rw [r2]
      show _ + _ = _
      rw [i1, tile_length h hw hb h8, Nat.succ_mul]
      omega
    · rw [r2]
    · rw [List.mem_append, i3, List.mem_map, Nat.succ_mul]
      constructor
      · rintro (⟨h1, h2, h3⟩ | ⟨l, hl, he⟩)
        · exact ⟨by omega, h2, h3⟩
        · rw [hst _ (by omega)] at hl
          simp only [Prod.mk.injEq] at he
          obtain ⟨rfl, rfl⟩ := he
          exact ⟨by omega, by omega, r1 l hl.1 (by omega)⟩
      · rintro ⟨h1, h2, rfl⟩
        by_cases hj : j < T * c.nr
        · exact Or.inl ⟨hj, h2, rfl⟩
        · refine Or.inr ⟨j - T * c.nr, ?_, ?_⟩
          · rw [hst _ (by omega)]
            omega
          · rw [r1 _ (by omega) (by omega), show T * c.nr + (j - T * c.nr) = j by omega]

/-- The bytes of one row of activations. -/
theorem actRow_eq {w : Wt} (a : Act) (hk : w.gs ∣ w.k) (i : Nat) :
    actRow a w.k w.gs w.zeros.isSome i = actHead a i ++ actGroups a w i := by
  unfold actRow actGroups
  cases w.zeros.isSome with
  | true => rfl
  | false =>
    rw [if_neg (by simp)]
    have e := map_blocks (a.q i) (w.k / w.gs) w.gs
    rw [Nat.div_mul_cancel hk] at e
    rw [← e]
    congr 2
    funext g
    simp [actGroup]

theorem actGroups_length (a : Act) (w : Wt) (hk : w.gs ∣ w.k) (i : Nat) :
    (actGroups a w i).length = w.k + if w.zeros.isSome then 4 * (w.k / w.gs) else 0 := by
  unfold actGroups
  rw [flatMap_length _ (w.gs + if w.zeros.isSome then 4 else 0), List.length_range]
  · rw [Nat.mul_add, Nat.div_mul_cancel hk]
    split <;> ring
  · intro g _
    unfold actGroup
    rw [List.length_append]
    split <;> simp [le32]

/-- **C166.** The packed activations have the announced size. -/
theorem C166_activations_size (a : Act) (w : Wt) (hk : w.gs ∣ w.k) :
    ((List.range a.m).flatMap (actRow a w.k w.gs w.zeros.isSome)).length = actSize a.m w.k w.gs w.zeros.isSome := by
  rw [flatMap_length _ (4 + 1 + (w.k + if w.zeros.isSome then 4 * (w.k / w.gs) else 0)), List.length_range, actSize]
  · ring
  · intro i _
    rw [actRow_eq a hk, List.length_append, actGroups_length a w hk]
    rfl

theorem gemmRows_spec {F : Type} (fl : Fl F) {c : Cfg} {w : Wt} (a : Act) {cd : Codec} (h : c.Ok) (hw : w.Ok c)
    (hb : 8 * cd.b = c.bits * (c.kr * c.nr)) (h8 : 8 ∣ w.k) (hn : 0 < w.n) {stride : Nat}
    {stored : Nat → List Nat} (hst : StoredOk c.nr stored) {tile : F → BitVec 32 → M (Nat → F)} {hasClamp : Bool}
    (htile : ∀ i t, t * c.nr < w.n → Reads (tile (fl.load (a.scale i)) ((a.zero i).signExtend 32)) (tileBytes c w cd (t * c.nr)) (actGroups a w i)
      fun r => ∀ j, j < c.nr → t * c.nr + j < w.n → r j = entry fl c w a hasClamp i (t * c.nr + j))
    {W A : Mem} {pw pa : Nat} (hW : At W pw ((List.range (steps w.n c.nr)).flatMap fun t => tileBytes c w cd (t * c.nr))) :
    ∀ m, At A pa ((List.range m).flatMap (actRow a w.k w.gs w.zeros.isSome)) →
      (gemmRows fl c.nr w.n stride stored tile W A pw pa m).2 = pa + ((List.range m).flatMap (actRow a w.k w.gs w.zeros.isSome)).length ∧
      ∀ q v, (q, v) ∈ (gemmRows fl c.nr w.n stride stored tile W A pw pa m).1 ↔
        ∃ i j, i < m ∧ j < w.n ∧ q = i * stride + j ∧ v = entry fl c w a hasClamp i j := by
  intro m
  induction m with
  | zero =>
    intro _
    refine ⟨rfl, fun q v => ?_⟩
    simp [gemmRows]
  | succ m ih =>
    intro hA
    rw [List.range_succ, List.flatMap_append] at hA ⊢
    obtain ⟨a1, a2⟩ := hA.append
    obtain ⟨i1, i2⟩ := ih a1
    simp only [List.flatMap_cons, List.flatMap_nil, List.append_nil] at a2 ⊢
    rw [← i1, actRow_eq a hw.k] at a2
    obtain ⟨b1, b2⟩ := a2.append
    obtain ⟨b0, b3⟩ := At.append b1
    have hs := le32_bytes b0
    have hz := b3 0 (by simp)
    simp only [Nat.add_zero, List.getElem_cons_zero] at hz
    rw [le32_length] at hz
    have hT : 0 < steps w.n c.nr := lt_steps h.nr_pos (by omega)
    simp only [gemmRows]
    rw [hs, hz]
    have hlen : (actHead a m).length = 4 + 1 := rfl
    rw [hlen, ← Nat.add_assoc] at b2
    obtain ⟨-, c2, c3⟩ := gemmCols_spec h hw hb h8 hst (want := entry fl c w a hasClamp m) (htile m) (p := ⟨pw, _⟩) hW b2 (steps w.n c.nr) le_rfl
    have hcov : ∀ j, j < w.n → j < steps w.n c.nr * c.nr := by
      intro j hj
      have : j / c.nr < steps w.n c.nr := lt_steps h.nr_pos (lt_of_le_of_lt (Nat.div_mul_le_self j c.nr) hj)
      exact (Nat.div_lt_iff_lt_mul h.nr_pos).mp this
    refine ⟨?_, fun q v => ?_⟩
    · rw [c2 hT, List.length_append, actRow_eq a hw.k, List.length_append, hlen, i1]
      show _ + 4 + 1 + _ = _
      omega
    · rw [List.mem_append, i2, List.mem_map]
      constructor
      · rintro (⟨i, j, h1, h2, h3, h4⟩ | ⟨⟨j, x⟩, hx, he⟩)
        · exact ⟨i, j, by omega, h2, h3, h4⟩
        · obtain ⟨-, hj, hv⟩ := (c3 j x).mp hx
          simp only [Prod.mk.injEq] at he
          obtain ⟨rfl, rfl⟩ := he
          exact ⟨m, j, by omega, hj, rfl, hv⟩
      · rintro ⟨i, j, h1, h2, rfl, rfl⟩
        by_cases hi : i < m
        · exact Or.inl ⟨i, j, hi, h2, rfl, rfl⟩
        · obtain rfl : i = m := by omega
          exact Or.inr ⟨(j, _), (c3 j _).mpr ⟨hcov j h2, h2, rfl⟩, rfl⟩

/-- The output after the kernel: every entry is the product's, nothing else is touched. -/
def Computes {F : Type} (fl : Fl F) (c : Cfg) (w : Wt) (a : Act) (hasClamp : Bool) (stride : Nat) (ws : List (Nat × F)) : Prop :=
  ∀ old : Nat → F,
    (∀ i j, i < a.m → j < w.n → applyW old ws (i * stride + j) = entry fl c w a hasClamp i j) ∧
    (∀ q, (∀ i j, i < a.m → j < w.n → q ≠ i * stride + j) → applyW old ws q = old q)

theorem computes_of {F : Type} (fl : Fl F) {c : Cfg} {w : Wt} {a : Act} {hasClamp : Bool} {stride : Nat} (hs : w.n ≤ stride) {ws : List (Nat × F)}
    (h : ∀ q v, (q, v) ∈ ws ↔ ∃ i j, i < a.m ∧ j < w.n ∧ q = i * stride + j ∧ v = entry fl c w a hasClamp i j) :
    Computes fl c w a hasClamp stride ws := by
  intro old
  refine ⟨fun i j hi hj => ?_, fun q hq => ?_⟩
  · refine applyW_same _ _ _ _ (fun v hv => ?_) ((h _ _).mpr ⟨i, j, hi, hj, rfl, rfl⟩)
    obtain ⟨i', j', -, hj', he, rfl⟩ := (h _ _).mp hv
    have hs0 : 0 < stride := by omega
    have e1 : (i * stride + j) / stride = i := by rw [Nat.mul_comm, Nat.mul_add_div hs0, Nat.div_eq_of_lt (by omega), Nat.add_zero]
    have e2 : (i' * stride + j') / stride = i' := by rw [Nat.mul_comm, Nat.mul_add_div hs0, Nat.div_eq_of_lt (by omega), Nat.add_zero]
    obtain rfl : i = i' := by rw [← e1, he, e2]
    obtain rfl : j = j' := by omega
    rfl
  · refine applyW_other _ _ _ fun v hv => ?_
    obtain ⟨i, j, hi, hj, he, -⟩ := (h _ _).mp hv
    exact hq i j hi hj he

/-- **C166.** `kernel_1x8x16_f32_neondot`, with and without tables: on weights packed by `pack_weights` (or
`pack_weights_with_lut`) with the same shape, for any number of rows, columns and groups, entry `(i, j)` of the
output is the accumulation over the groups of the scales times the dot product of the dequantised integers (exact
modulo `2^32`), with bias and clamp; entries of columns that do not exist are not written. -/
theorem C166_1x8x16 {F : Type} (fl : Fl F) (bits : Nat) (lut : Bool) (hb : 1 ≤ bits ∧ bits ≤ 8) (hb4 : lut = true → bits ≤ 4) {w : Wt}
    (hw : w.Ok ⟨bits, 8, 16, 2, lut⟩) (hl : w.LutOk ⟨bits, 8, 16, 2, lut⟩) (hk : 0 < w.k) (hn : 0 < w.n)
    (hfit : ∀ a, a < w.n * w.k → Cfg.Fits ⟨bits, 8, 16, 2, lut⟩ (w.ints a)) (a : Act) (hasClamp : Bool) {stride : Nat} (hs : w.n ≤ stride)
    {L : List Byte} (hL : packWeights ⟨bits, 8, 16, 2, lut⟩ w = some L) {W A : Mem} {pw pa : Nat} (hW : At W pw L)
    (hA : At A pa ((List.range a.m).flatMap (actRow a w.k w.gs w.zeros.isSome))) :
    Computes fl ⟨bits, 8, 16, 2, lut⟩ w a hasClamp stride
      (kernel8 fl stride a.m w.n w.k w.gs bits lut w.zeros.isSome w.bias.isSome hasClamp W A pw pa) := by
  have h : Cfg.Ok ⟨bits, 8, 16, 2, lut⟩ := ⟨hb, Or.inr (Or.inr rfl), ⟨(by decide : 0 < 2), (by decide : 2 ∣ 16)⟩, fun e => ⟨hb4 e, rfl⟩⟩
  obtain ⟨cd, h1, -, h3, h4⟩ := codec_ok h
  have hcd : (if lut then uint128 bits else lowbit bits (uint128 bits)) = cd := by
    rw [codecOf] at h1
    cases lut <;> simpa [uintN] using h1
  have h8 : 8 ∣ w.k := (by decide : 8 ∣ 16).trans (hw.kr.trans hw.k)
  rw [packWeights, h1, Option.map_some, Option.some.injEq] at hL
  subst hL
  apply computes_of fl hs
  unfold kernel8
  rw [hcd]
  exact (gemmRows_spec fl a h hw h3 h8 hn stored8_ok
    (fun i t _ => tilePairs_reads fl a h hw hl rfl rfl (by decide : 2 ∣ 8) hk h4 hfit hasClamp i t) hW a.m hA).2

/-- **C166.** `kernel_1x4x16_f32_neondot`. -/
theorem C166_1x4x16 {F : Type} (fl : Fl F) (bits : Nat) (hb : 1 ≤ bits ∧ bits ≤ 8) {w : Wt}
    (hw : w.Ok ⟨bits, 4, 16, 2, false⟩) (hk : 0 < w.k) (hn : 0 < w.n)
    (hfit : ∀ a, a < w.n * w.k → Cfg.Fits ⟨bits, 4, 16, 2, false⟩ (w.ints a)) (a : Act) (hasClamp : Bool) {stride : Nat} (hs : w.n ≤ stride)
    {L : List Byte} (hL : packWeights ⟨bits, 4, 16, 2, false⟩ w = some L) {W A : Mem} {pw pa : Nat} (hW : At W pw L)
    (hA : At A pa ((List.range a.m).flatMap (actRow a w.k w.gs w.zeros.isSome))) :
    Computes fl ⟨bits, 4, 16, 2, false⟩ w a hasClamp stride
      (kernel4 fl stride a.m w.n w.k w.gs bits w.zeros.isSome w.bias.isSome hasClamp W A pw pa) := by
  have h : Cfg.Ok ⟨bits, 4, 16, 2, false⟩ := ⟨hb, Or.inr (Or.inl rfl), ⟨(by decide : 0 < 2), (by decide : 2 ∣ 16)⟩, by simp⟩
  obtain ⟨cd, h1, -, h3, h4⟩ := codec_ok h
  have hcd : lowbit bits (uint64 bits) = cd := by
    rw [codecOf] at h1
    simpa [uintN] using h1
  have h8 : 8 ∣ w.k := (by decide : 8 ∣ 16).trans (hw.kr.trans hw.k)
  rw [packWeights, h1, Option.map_some, Option.some.injEq] at hL
  subst hL
  apply computes_of fl hs
  unfold kernel4
  rw [hcd]
  exact (gemmRows_spec fl a h hw h3 h8 hn stored4_ok
    (fun i t _ => tilePairs_reads fl a h hw (by intro e; cases e) rfl rfl (by decide : 2 ∣ 4) hk h4 hfit hasClamp i t) hW a.m hA).2

/-- **C166.** `kernel_1x1x32_f32_neondot`, for every way `sr` of splitting the column. -/
theorem C166_1x1x32 {F : Type} (fl : Fl F) (bits sr : Nat) (hb : 1 ≤ bits ∧ bits ≤ 8) (hsr : 0 < sr ∧ sr ∣ 32) {w : Wt}
    (hw : w.Ok ⟨bits, 1, 32, sr, false⟩) (hn : 0 < w.n)
    (hfit : ∀ a, a < w.n * w.k → Cfg.Fits ⟨bits, 1, 32, sr, false⟩ (w.ints a)) (a : Act) (hasClamp : Bool) {stride : Nat} (hs : w.n ≤ stride)
    {L : List Byte} (hL : packWeights ⟨bits, 1, 32, sr, false⟩ w = some L) {W A : Mem} {pw pa : Nat} (hW : At W pw L)
    (hA : At A pa ((List.range a.m).flatMap (actRow a w.k w.gs w.zeros.isSome))) :
    Computes fl ⟨bits, 1, 32, sr, false⟩ w a hasClamp stride
      (kernel1 fl stride a.m w.n w.k w.gs bits w.zeros.isSome w.bias.isSome hasClamp W A pw pa) := by
  have h : Cfg.Ok ⟨bits, 1, 32, sr, false⟩ := ⟨hb, Or.inl rfl, hsr, by simp⟩
  obtain ⟨cd, h1, -, h3, h4⟩ := codec_ok h
  have hcd : lowbit bits (uint32 bits) = cd := by
    rw [codecOf] at h1
    simpa [uintN] using h1
  have h8 : 8 ∣ w.k := (by decide : 8 ∣ 32).trans (hw.kr.trans hw.k)
  rw [packWeights, h1, Option.map_some, Option.some.injEq] at hL
  subst hL
  apply computes_of fl hs
  unfold kernel1
  rw [hcd]
  exact (gemmRows_spec fl a h hw h3 h8 hn stored1_ok
    (fun i t ht => tile1_reads fl a h hw rfl rfl rfl h4 hfit hasClamp i t (by simpa using ht)) hW a.m hA).2

/-! ## The integers do not overflow -/

theorem toInt_range (b : Byte) : -128 ≤ b.toInt ∧ b.toInt ≤ 127 := by
  have := BitVec.toInt_lt (x := b)
  have := BitVec.le_toInt (x := b)
  omega

theorem groupDot_bound (c : Cfg) (w : Wt) (a : Act) (i j g : Nat) : |groupDot c w a i j g| ≤ w.gs * 65025 := by
  unfold groupDot
  refine (Finset.abs_sum_le_sum_abs _ _).trans ?_
  refine (Finset.sum_le_card_nsmul _ _ 65025 fun x _ => ?_).trans (by simp)
  have hw : -128 ≤ w.weight c j (g * w.gs + x) ∧ w.weight c j (g * w.gs + x) ≤ 127 := by
    unfold Wt.weight
    split <;> exact toInt_range _
  have hz : -128 ≤ w.zeroAt j g ∧ w.zeroAt j g ≤ 127 := by
    unfold Wt.zeroAt
    cases w.zeros with
    | none => exact ⟨by show (-128 : Int) ≤ 0; decide, by show (0 : Int) ≤ 127; decide⟩
    | some z => exact toInt_range _
  have hq := toInt_range (a.q i (g * w.gs + x))
  have ha := toInt_range (a.zero i)
  rw [abs_mul]
  have h1 : |w.weight c j (g * w.gs + x) - w.zeroAt j g| ≤ 255 := abs_le.mpr ⟨by omega, by omega⟩
  have h2 : |(a.q i (g * w.gs + x)).toInt - (a.zero i).toInt| ≤ 255 := abs_le.mpr ⟨by omega, by omega⟩
  calc _ ≤ (255 : Int) * 255 := mul_le_mul h1 h2 (abs_nonneg _) (by decide)
    _ = 65025 := by norm_num

/-- **C166.** Groups of up to 33025 values: the integer of every group is exact. -/
theorem C166_no_overflow (c : Cfg) (w : Wt) (a : Act) (i j g : Nat) (hg : w.gs ≤ 33025) :
    (BitVec.ofInt 32 (groupDot c w a i j g)).toInt = groupDot c w a i j g := by
  have h := groupDot_bound c w a i j g
  have h2 : (w.gs : Int) * 65025 ≤ 33025 * 65025 := by
    have : (w.gs : Int) ≤ 33025 := by exact_mod_cast hg
    omega
  rw [abs_le] at h
  rw [BitVec.toInt_ofInt, Int.bmod_eq_of_le] <;> omega

/-- **C166.** In exact arithmetic an entry is the dot product of the dequantised row and column, plus the bias, clamped. -/
theorem C166_exact {F : Type} [Field F] (val : BitVec 32 → F) (clamp : F → F) (c : Cfg) (w : Wt) (a : Act) (hw : w.Ok c)
    (hg : w.gs ≤ 33025) (hasClamp : Bool) (i j : Nat) :
    entry ⟨val, 0, (· * ·), fun r x y => r + x * y, fun z => ((z.toInt : Int) : F), (· + ·), clamp⟩ c w a hasClamp i j =
      (if hasClamp then clamp else id)
        ((∑ x ∈ Finset.range w.k, (val (w.scales (j * w.groups + x / w.gs)) * ((w.weight c j x - w.zeroAt j (x / w.gs) : Int) : F))
            * (val (a.scale i) * (((a.q i x).toInt - (a.zero i).toInt : Int) : F)))
          + (match w.bias with
            | some b => val (b j)
            | none => 0)) := by
  have hgr : ∀ G, groupsVal ⟨val, 0, (· * ·), fun r x y => r + x * y, fun z => ((z.toInt : Int) : F), (· + ·), clamp⟩ c w a i j G =
      ∑ x ∈ Finset.range (G * w.gs), (val (w.scales (j * w.groups + x / w.gs)) * ((w.weight c j x - w.zeroAt j (x / w.gs) : Int) : F))
            * (val (a.scale i) * (((a.q i x).toInt - (a.zero i).toInt : Int) : F)) := by
    intro G
    induction G with
    | zero => simp [groupsVal]
    | succ G ih =>
      rw [groupsVal, ih, Nat.succ_mul, Finset.sum_range_add]
      dsimp only
      congr 1
      rw [C166_no_overflow c w a i j G hg, groupDot, Int.cast_sum, Finset.mul_sum]
      refine Finset.sum_congr rfl fun x hx => ?_
      have e : (G * w.gs + x) / w.gs = G := by
        rw [Nat.mul_comm, Nat.mul_add_div hw.gs, Nat.div_eq_of_lt (Finset.mem_range.mp hx), Nat.add_zero]
      rw [e]
      push_cast
      ring
  have hk : w.groups * w.gs = w.k := Nat.div_mul_cancel hw.k
  unfold entry biasVal
  rw [hgr, hk]
  cases w.bias <;> cases hasClamp <;> simp

/-- Non-vacuity: eleven columns of two groups, three rows, with a table per eight columns being impossible but one for all possible. -/
example : (Wt.mk 11 64 32 (fun _ => 3) 1 (fun _ => 5) (fun _ => 0) (some fun _ => 2) none).Ok ⟨4, 8, 16, 2, true⟩ ∧
    (Wt.mk 11 64 32 (fun _ => 3) 1 (fun _ => 5) (fun _ => 0) (some fun _ => 2) none).LutOk ⟨4, 8, 16, 2, true⟩ ∧
    Cfg.Fits ⟨4, 8, 16, 2, true⟩ 3 := by
  refine ⟨⟨by decide, by decide, by decide⟩, fun _ => by decide, ?_⟩
  unfold Cfg.Fits
  decide

end Verif.Bits
