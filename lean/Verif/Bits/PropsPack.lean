import Verif.Bits.PackLemmas

/-!
# C165: packed weights have the announced size and come back
-/

namespace Verif.Bits

/-- **C165.** The packed weights of every matrix have exactly the size announced by the size functions, and the
tile of column `n` starts at the announced offset. -/
theorem C165_size {c : Cfg} {w : Wt} (h : c.Ok) (hw : w.Ok c) (h8 : 8 ∣ w.k) (hk : 0 < w.k) :
    ∃ L, packWeights c w = some L ∧
      L.length = (if c.lut then packedLutSize w.n w.k w.gs c.bits w.zeros.isSome w.bias.isSome c.nr
        else packedSize w.n w.k w.gs c.bits w.zeros.isSome w.bias.isSome c.nr) := by
  obtain ⟨cd, h1, -, h3, -⟩ := codec_ok h
  refine ⟨_, by rw [packWeights, h1]; rfl, ?_⟩
  rw [flatMap_length _ (tileSize c w) _ (fun t _ => tile_length h hw h3 h8 _), List.length_range]
  have hg : 0 < w.groups := Nat.div_pos (Nat.le_of_dvd hk hw.k) hw.gs
  unfold tileSize packedLutSize packedSize steps
  cases c.lut with
  | true =>
    rw [if_pos ⟨rfl, hg⟩, if_pos rfl, Nat.mul_div_cancel _ h.nr_pos]
    ring
  | false =>
    rw [if_neg (by simp), if_neg (by simp)]
    ring

theorem lt_steps {t n b : Nat} (hb : 0 < b) (h : t * b < n) : t < steps n b := by
  rw [steps]
  refine (Nat.le_div_iff_mul_le hb).mpr ?_
  rw [Nat.succ_mul]
  omega

/-- The bytes of the tile of column `n = t * nr` lie at its offset. -/
theorem tile_at {c : Cfg} {w : Wt} {cd : Codec} (h : c.Ok) (hw : w.Ok c) (hb : 8 * cd.b = c.bits * (c.kr * c.nr)) (h8 : 8 ∣ w.k)
    {mem : Mem} {p T : Nat} (hm : At mem p ((List.range T).flatMap fun t => tileBytes c w cd (t * c.nr))) :
    ∀ t, t < T → At mem (p + t * tileSize c w) (tileBytes c w cd (t * c.nr)) := by
  induction T with
  | zero => intro t ht; omega
  | succ T ih =>
    rw [List.range_succ, List.flatMap_append] at hm
    obtain ⟨m1, m2⟩ := hm.append
    intro t ht
    by_cases htT : t < T
    · exact ih m1 t htT
    · obtain rfl : t = T := by omega
      rw [flatMap_length _ (tileSize c w) _ (fun t _ => tile_length h hw hb h8 _), List.length_range] at m2
      simpa using m2

/-- **C165.** The announced offset of the columns `t * nr` is where their tile starts: their bytes at the offset are
the packed weights of these columns alone. -/
theorem C165_offset {c : Cfg} {w : Wt} (h : c.Ok) (hw : w.Ok c) (h8 : 8 ∣ w.k) (hk : 0 < w.k) {L : List Byte}
    (hL : packWeights c w = some L) {t : Nat} (ht : t * c.nr < w.n) :
    ∃ cd, codecOf c = some cd ∧
      At (fun i => L.getD i 0)
        (if c.lut then packedLutOffset (t * c.nr) w.k w.gs c.bits w.zeros.isSome w.bias.isSome c.nr
          else packedOffset (t * c.nr) w.k w.gs c.bits w.zeros.isSome w.bias.isSome c.nr)
        (tileBytes c w cd (t * c.nr)) := by
  obtain ⟨cd, h1, -, h3, -⟩ := codec_ok h
  refine ⟨cd, h1, ?_⟩
  rw [packWeights, h1, Option.map_some, Option.some.injEq] at hL
  have hat : At (fun i => L.getD i 0) 0 ((List.range (steps w.n c.nr)).flatMap fun t => tileBytes c w cd (t * c.nr)) := by
    intro i hi
    rw [hL] at hi
    simp [hL, List.getD_eq_getElem?_getD, List.getElem?_eq_getElem hi]
  have hnr := h.nr_pos
  have htT : t < steps w.n c.nr := lt_steps hnr ht
  have := tile_at h hw h3 h8 hat t htT
  have hg : 0 < w.groups := Nat.div_pos (Nat.le_of_dvd hk hw.k) hw.gs
  have e1 : (c.nr + c.nr - 1) / c.nr = 1 := by
    rw [Nat.div_eq_iff hnr]
    omega
  convert this using 1
  unfold packedLutOffset packedOffset packedLutSize packedSize tileSize
  rw [Nat.mul_div_cancel _ hnr, e1]
  cases c.lut with
  | true =>
    rw [if_pos rfl, if_pos ⟨rfl, hg⟩, Nat.one_mul, Nat.div_self hnr]
    ring
  | false =>
    rw [if_neg (by simp), if_neg (by simp)]
    ring

/-! ## Unpacking -/

/-- The stores `unpack_weights` must do: every weight, scale, zero and bias, at its place in the flat arrays. -/
def Wanted (w : Wt) (x : Wr) : Prop :=
  (∃ a, a < w.n * w.k ∧ x = ((Slot.qvals, a), Val.byte (w.ints a)))
  ∨ (∃ a, a < w.n * (w.k / w.gs) ∧ x = ((Slot.scales, a), Val.word (w.scales a)))
  ∨ (∃ z a, w.zeros = some z ∧ a < w.n * (w.k / w.gs) ∧ x = ((Slot.zeros, a), Val.byte (z a)))
  ∨ (∃ b a, w.bias = some b ∧ a < w.n ∧ x = ((Slot.bias, a), Val.word (b a)))

/-- All stores are wanted, and those in `R` are there. -/
def Gets (w : Wt) (R : Wr → Prop) (l : List Wr) : Prop := (∀ x ∈ l, Wanted w x) ∧ ∀ x, R x → x ∈ l

theorem Gets.append {w : Wt} {R R' : Wr → Prop} {l l' : List Wr} (h : Gets w R l) (h' : Gets w R' l') :
    Gets w (fun x => R x ∨ R' x) (l ++ l') := by
  refine ⟨fun x hx => ?_, fun x hx => ?_⟩
  · rcases List.mem_append.mp hx with h1 | h1
    · exact h.1 x h1
    · exact h'.1 x h1
  · rcases hx with h1 | h1
    · exact List.mem_append_left _ (h.2 x h1)
    · exact List.mem_append_right _ (h'.2 x h1)

theorem Gets.mono {w : Wt} {R R' : Wr → Prop} {l : List Wr} (h : Gets w R l) (hr : ∀ x, R' x → R x) : Gets w R' l :=
  ⟨h.1, fun x hx => h.2 x (hr x hx)⟩

theorem collect {w : Wt} {n : Nat} {f : Nat → M (List Wr)} {L : Nat → List Byte} {R : Nat → Wr → Prop}
    (h : ∀ i, i < n → Reads (f i) (L i) [] (Gets w (R i))) :
    Reads (loopM n [] fun i (acc : List Wr) => do let x ← f i; pure (acc ++ x)) ((List.range n).flatMap L) []
      (Gets w fun x => ∃ i, i < n ∧ R i x) := by
  have := Reads.loop (n := n) (init := ([] : List Wr)) (f := fun i (acc : List Wr) => do let x ← f i; pure (acc ++ x))
    (L := L) (K := fun _ => []) (fun i acc => Gets w (fun x => ∃ i', i' < i ∧ R i' x) acc)
    ⟨by simp, by rintro x ⟨i, hi, _⟩; omega⟩
    (by
      intro i s hi hI
      have := Reads.bind (L' := []) (K' := []) (h i hi) (fun x hx => Reads.pure (x := s ++ x)
        (Q := Gets w (fun x => ∃ i', i' < i + 1 ∧ R i' x)) (by
          refine (hI.append hx).mono ?_
          rintro y ⟨i', hi', hy⟩
          by_cases he : i' < i
          · exact Or.inl ⟨i', he, hy⟩
          · obtain rfl : i' = i := by omega
            exact Or.inr hy))
      simpa using this)
  have e : ((List.range n).flatMap fun _ => ([] : List Byte)) = [] := by simp
  rw [e] at this
  exact this

theorem buffer_fits {c : Cfg} {w : Wt} (h : ∀ a, a < w.n * w.k → c.Fits (w.ints a)) {n k : Nat} (hk : k + c.kr ≤ w.k) (hkr : 0 < c.kr)
    (i : Nat) : c.Fits (buffer c w n k i) := by
  unfold buffer
  split
  · rename_i hn
    apply h
    have : i % c.kr < c.kr := Nat.mod_lt _ hkr
    have h2 : (n + i / c.kr + 1) * w.k ≤ w.n * w.k := Nat.mul_le_mul_right _ hn
    rw [Nat.succ_mul] at h2
    omega
  · exact fits_zero

/-- The pieces of a group lie in the matrix. -/
theorem piece_bound {c : Cfg} {w : Wt} (h : c.Ok) (hw : w.Ok c) {g b : Nat} (hg : g < w.k / w.gs) (hb : b < steps w.gs c.kr) :
    g * w.gs + b * c.kr + c.kr ≤ w.k := by
  rw [steps_dvd h.kr_pos hw.kr] at hb
  have h1 : (b + 1) * c.kr ≤ w.gs := by
    have := Nat.mul_le_mul_right c.kr hb
    rw [Nat.div_mul_cancel hw.kr] at this
    exact this
  have h2 : (g + 1) * w.gs ≤ w.k := by
    have := Nat.mul_le_mul_right w.gs hg
    rw [Nat.div_mul_cancel hw.k] at this
    exact this
  rw [Nat.succ_mul] at h1 h2
  omega

theorem unpackValues_buffer {c : Cfg} (h : c.Ok) (v : Nat → Byte) (y : Nat → Byte)
    (hy : ∀ i, i < c.kr * c.nr → y i = (packValues c v).getD i 0) {j x : Nat} (hj : j < c.nr) (hx : x < c.kr) :
    unpackValues c y (c.kr * j + x) = v (c.kr * j + x) := by
  obtain ⟨K, hK⟩ := h.sr.2
  have hs := h.sr.1
  have hkr := h.kr_pos
  have hKe : c.kr / c.sr = K := by rw [hK, Nat.mul_div_cancel_left _ hs]
  have hK0 : 0 < K := by
    rcases Nat.eq_zero_or_pos K with h0 | h0
    · rw [h0] at hK; omega
    · exact h0
  have e1 : (c.kr * j + x) / c.kr = j := by rw [Nat.mul_add_div hkr, Nat.div_eq_of_lt hx, Nat.add_zero]
  have e2 : (c.kr * j + x) % c.kr = x := by rw [Nat.mul_add_mod, Nat.mod_eq_of_lt hx]
  have hxs : x / K < c.sr := by
    rw [Nat.div_lt_iff_lt_mul hK0]
    rw [← hK]; exact hx
  have hxm : x % K < K := Nat.mod_lt _ hK0
  rw [unpackValues, e1, e2, hKe, hy, ← hKe, packValues_get v (by rw [hKe]; exact hxs) hj (by rw [hKe]; exact hxm), hKe]
  · congr 1
    have := Nat.div_add_mod x K
    rw [Nat.mul_comm (x / K) K, Nat.add_assoc, this, Nat.mul_comm]
  · rw [hK]
    calc x / K * (c.nr * K) + j * K + x % K < x / K * (c.nr * K) + (j + 1) * K := by rw [Nat.succ_mul]; omega
      _ ≤ x / K * (c.nr * K) + c.nr * K := by
          exact Nat.add_le_add_left (Nat.mul_le_mul_right K hj) _
      _ = (x / K + 1) * (c.nr * K) := by ring
      _ ≤ c.sr * (c.nr * K) := Nat.mul_le_mul_right _ hxs
      _ = c.sr * K * c.nr := by ring

theorem piece_reads {c : Cfg} {w : Wt} {cd : Codec} (h : c.Ok) (hw : w.Ok c)
    (hcd : ∀ u : Nat → Byte, (∀ i, c.Fits (u i)) → Reads (blockW cd) (block cd u) [] fun y => ∀ i, i < c.kr * c.nr → y i = u i)
    (hfit : ∀ a, a < w.n * w.k → c.Fits (w.ints a)) (n g b : Nat) (hg : g < w.k / w.gs) (hb : b < steps w.gs c.kr) :
    Reads (unpackPiece c cd w.n n w.k (g * w.gs + b * c.kr))
      (block cd fun i => (packValues c (buffer c w n (g * w.gs + b * c.kr))).getD i 0) []
      (Gets w fun z => ∃ j x, j < c.nr ∧ n + j < w.n ∧ x < c.kr ∧
        z = ((Slot.qvals, (n + j) * w.k + (g * w.gs + b * c.kr + x)), Val.byte (w.ints ((n + j) * w.k + (g * w.gs + b * c.kr + x))))) := by
  have hpb := piece_bound h hw hg hb
  have hkr := h.kr_pos
  have := Reads.bind (L' := []) (K' := []) (hcd _ (packValues_fits (buffer_fits (n := n) hfit hpb hkr)))
    (f := fun packed => pure ((List.range c.nr).flatMap fun j =>
      if n + j < w.n then
        (List.range c.kr).map fun x => (((Slot.qvals, n * w.k + (j * w.k + (g * w.gs + b * c.kr) + x)), Val.byte (unpackValues c packed (c.kr * j + x))) : Wr)
      else [])) (Q' := Gets w fun z => ∃ j x, j < c.nr ∧ n + j < w.n ∧ x < c.kr ∧
        z = ((Slot.qvals, (n + j) * w.k + (g * w.gs + b * c.kr + x)), Val.byte (w.ints ((n + j) * w.k + (g * w.gs + b * c.kr + x)))))
    (by
      intro y hy
      apply Reads.pure
      have key : ∀ j x, j < c.nr → n + j < w.n → x < c.kr →
          unpackValues c y (c.kr * j + x) = w.ints ((n + j) * w.k + (g * w.gs + b * c.kr + x)) := by
        intro j x hj hn hx
        rw [unpackValues_buffer h _ y hy hj hx, buffer]
        rw [Nat.mul_add_div hkr, Nat.div_eq_of_lt hx, Nat.add_zero, if_pos hn, Nat.mul_add_mod, Nat.mod_eq_of_lt hx]
      have adr : ∀ j x, n * w.k + (j * w.k + (g * w.gs + b * c.kr) + x) = (n + j) * w.k + (g * w.gs + b * c.kr + x) := by
        intro j x; ring
      refine ⟨?_, ?_⟩
      · intro z hz
        simp only [List.mem_flatMap, List.mem_range] at hz
        obtain ⟨j, hj, hz⟩ := hz
        by_cases hn : n + j < w.n
        · rw [if_pos hn, List.mem_map] at hz
          obtain ⟨x, hx, rfl⟩ := hz
          rw [List.mem_range] at hx
          rw [adr, key j x hj hn hx]
          refine Or.inl ⟨_, ?_, rfl⟩
          have h2 : (n + j + 1) * w.k ≤ w.n * w.k := Nat.mul_le_mul_right _ hn
          rw [Nat.succ_mul] at h2
          omega
        · rw [if_neg hn] at hz
          simp at hz
      · rintro z ⟨j, x, hj, hn, hx, rfl⟩
        simp only [List.mem_flatMap, List.mem_range]
        refine ⟨j, hj, ?_⟩
        rw [if_pos hn, List.mem_map]
        exact ⟨x, List.mem_range.mpr hx, by rw [adr, key j x hj hn hx]⟩)
  rw [List.append_nil] at this
  exact this

theorem signExtend_trunc (b : Byte) : (b.signExtend 32).truncate 8 = b := by
  have : ∀ b : Byte, (b.signExtend 32).truncate 8 = b := by decide +kernel
  exact this b

/-- Stores of one value per column. -/
theorem cols_gets {c : Cfg} {w : Wt} {n : Nat} (sl : Slot) (adr : Nat → Nat) (val : Nat → Val)
    (h : ∀ j, j < c.nr → n + j < w.n → Wanted w ((sl, adr j), val j)) :
    Gets w (fun z => ∃ j, j < c.nr ∧ n + j < w.n ∧ z = ((sl, adr j), val j))
      ((List.range c.nr).flatMap fun j => if n + j < w.n then [((sl, adr j), val j)] else []) := by
  refine ⟨?_, ?_⟩
  · intro z hz
    simp only [List.mem_flatMap, List.mem_range] at hz
    obtain ⟨j, hj, hz⟩ := hz
    by_cases hn : n + j < w.n
    · rw [if_pos hn, List.mem_singleton] at hz
      subst hz
      exact h j hj hn
    · rw [if_neg hn] at hz
      simp at hz
  · rintro z ⟨j, hj, hn, rfl⟩
    simp only [List.mem_flatMap, List.mem_range]
    exact ⟨j, hj, by rw [if_pos hn]; simp⟩

theorem grp_adr {a b n G : Nat} (h : a < n) (hb : b < G) : a * G + b < n * G := by
  have := Nat.mul_le_mul_right G h
  rw [Nat.succ_mul] at this
  omega

theorem zeros_reads {c : Cfg} {w : Wt} (n g : Nat) (hg : g < w.k / w.gs) :
    Reads (unpackZeros c w.n n (w.k / w.gs) g w.zeros.isSome) (zeroBytes c w n g) []
      (Gets w fun x => ∃ z j, w.zeros = some z ∧ j < c.nr ∧ n + j < w.n ∧
        x = ((Slot.zeros, (n + j) * (w.k / w.gs) + g), Val.byte (z ((n + j) * (w.k / w.gs) + g)))) := by
  unfold unpackZeros zeroBytes
  cases hz : w.zeros with
  | none => exact Reads.pure ⟨by simp, by rintro x ⟨z, j, h, _⟩; cases h⟩
  | some z =>
    have := Reads.bind (L' := []) (K' := []) (Reads.words c.nr fun j => if n + j < w.n then (z ((n + j) * w.groups + g)).signExtend 32 else 0)
      (f := fun zz => pure ((List.range c.nr).flatMap fun j =>
        if n + j < w.n then [(((Slot.zeros, n * (w.k / w.gs) + (j * (w.k / w.gs) + g)), Val.byte ((zz j).truncate 8)) : Wr)] else []))
      (Q' := Gets w fun x => ∃ z' j, some z = some z' ∧ j < c.nr ∧ n + j < w.n ∧
        x = ((Slot.zeros, (n + j) * (w.k / w.gs) + g), Val.byte (z' ((n + j) * (w.k / w.gs) + g))))
      (by
        intro y hy
        apply Reads.pure
        have key : ∀ j, j < c.nr → n + j < w.n → ((((Slot.zeros, n * (w.k / w.gs) + (j * (w.k / w.gs) + g)), Val.byte ((y j).truncate 8)) : Wr)
            = ((Slot.zeros, (n + j) * (w.k / w.gs) + g), Val.byte (z ((n + j) * (w.k / w.gs) + g)))) := by
          intro j hj hn
          rw [hy j hj, if_pos hn, signExtend_trunc, show n * (w.k / w.gs) + (j * (w.k / w.gs) + g) = (n + j) * (w.k / w.gs) + g by ring]
          rfl
        refine (cols_gets _ _ _ fun j hj hn => ?_).mono ?_
        · rw [key j hj hn]
          exact Or.inr (Or.inr (Or.inl ⟨z, _, hz, grp_adr hn hg, rfl⟩))
        · rintro x ⟨z', j, he, hj, hn, rfl⟩
          cases he
          exact ⟨j, hj, hn, (key j hj hn).symm⟩)
    simpa using this

theorem bias_reads {c : Cfg} {w : Wt} (n : Nat) :
    Reads (unpackBias c w.n n w.bias.isSome) (biasBytes c w n) []
      (Gets w fun x => ∃ b j, w.bias = some b ∧ j < c.nr ∧ n + j < w.n ∧ x = ((Slot.bias, n + j), Val.word (b (n + j)))) := by
  unfold unpackBias biasBytes
  cases hz : w.bias with
  | none => exact Reads.pure ⟨by simp, by rintro x ⟨z, j, h, _⟩; cases h⟩
  | some z =>
    have := Reads.bind (L' := []) (K' := []) (Reads.words c.nr fun j => if n + j < w.n then z (n + j) else 0)
      (f := fun zz => pure ((List.range c.nr).flatMap fun j =>
        if n + j < w.n then [(((Slot.bias, n + j), Val.word (zz j)) : Wr)] else []))
      (Q' := Gets w fun x => ∃ z' j, some z = some z' ∧ j < c.nr ∧ n + j < w.n ∧
        x = ((Slot.bias, n + j), Val.word (z' (n + j))))
      (by
        intro y hy
        apply Reads.pure
        refine (cols_gets _ _ _ fun j hj hn => ?_).mono ?_
        · rw [hy j hj, if_pos hn]
          exact Or.inr (Or.inr (Or.inr ⟨z, _, hz, hn, rfl⟩))
        · rintro x ⟨z', j, he, hj, hn, rfl⟩
          cases he
          exact ⟨j, hj, hn, by rw [hy j hj, if_pos hn]⟩)
    simpa using this

/-- What one group must store. -/
def GroupReq (c : Cfg) (w : Wt) (n g : Nat) (z : Wr) : Prop :=
  (∃ j x, j < c.nr ∧ n + j < w.n ∧ x < w.gs ∧
    z = ((Slot.qvals, (n + j) * w.k + (g * w.gs + x)), Val.byte (w.ints ((n + j) * w.k + (g * w.gs + x)))))
  ∨ (∃ j, j < c.nr ∧ n + j < w.n ∧ z = ((Slot.scales, (n + j) * (w.k / w.gs) + g), Val.word (w.scales ((n + j) * (w.k / w.gs) + g))))
  ∨ (∃ zz j, w.zeros = some zz ∧ j < c.nr ∧ n + j < w.n ∧
      z = ((Slot.zeros, (n + j) * (w.k / w.gs) + g), Val.byte (zz ((n + j) * (w.k / w.gs) + g))))

theorem group_reads {c : Cfg} {w : Wt} {cd : Codec} (h : c.Ok) (hw : w.Ok c) (hl : c.lut = false)
    (hcd : ∀ u : Nat → Byte, (∀ i, c.Fits (u i)) → Reads (blockW cd) (block cd u) [] fun y => ∀ i, i < c.kr * c.nr → y i = u i)
    (hfit : ∀ a, a < w.n * w.k → c.Fits (w.ints a)) (n g : Nat) (hg : g < w.k / w.gs) :
    Reads (unpackGroup c cd w.n n w.k w.gs g w.zeros.isSome) (groupBytes c w cd n g) [] (Gets w (GroupReq c w n g)) := by
  have e : groupBytes c w cd n g =
    ((List.range (steps w.gs c.kr)).flatMap fun b => block cd fun i => (packValues c (buffer c w n (g * w.gs + b * c.kr))).getD i 0)
    ++ (((List.range c.nr).flatMap fun j => le32 (if n + j < w.n then w.scales ((n + j) * w.groups + g) else 0))
    ++ (((List.range c.nr).flatMap fun j => le32 (BitVec.ofInt 32 (qvalsSum c w n (g * w.gs) j)))
    ++ (zeroBytes c w n g ++ []))) := by
    simp [groupBytes, hl]
  rw [e]
  have kr0 := h.kr_pos
  refine Reads.bind (K := []) (K' := []) (collect fun b hb => piece_reads h hw hcd hfit n g b hg hb) fun q hq => ?_
  refine Reads.bind (K := []) (K' := []) (Reads.words _ _) fun s hs => ?_
  refine Reads.bind (K := []) (K' := []) (Reads.words _ _) fun _ _ => ?_
  refine Reads.bind (K := []) (K' := []) (zeros_reads n g hg) fun z hz => ?_
  apply Reads.pure
  have key : ∀ j, j < c.nr → n + j < w.n → ((((Slot.scales, n * (w.k / w.gs) + (j * (w.k / w.gs) + g)), Val.word (s j)) : Wr)
      = ((Slot.scales, (n + j) * (w.k / w.gs) + g), Val.word (w.scales ((n + j) * (w.k / w.gs) + g)))) := by
    intro j hj hn
    rw [hs j hj, if_pos hn, show n * (w.k / w.gs) + (j * (w.k / w.gs) + g) = (n + j) * (w.k / w.gs) + g by ring]
    rfl
  refine ((hq.append (cols_gets _ _ _ fun j hj hn => ?_)).append hz).mono ?_
  · rw [key j hj hn]
    exact Or.inr (Or.inl ⟨_, grp_adr hn hg, rfl⟩)
  · rintro x (⟨j, y, hj, hn, hy, rfl⟩ | ⟨j, hj, hn, rfl⟩ | hx)
    · refine Or.inl (Or.inl ⟨y / c.kr, ?_, j, y % c.kr, hj, hn, Nat.mod_lt _ kr0, ?_⟩)
      · rw [steps_dvd kr0 hw.kr]
        exact Nat.div_lt_div_of_lt_of_dvd hw.kr hy
      · have := Nat.div_add_mod y c.kr
        rw [Nat.mul_comm] at this
        rw [Nat.add_assoc, this]
    · exact Or.inl (Or.inr ⟨j, hj, hn, (key j hj hn).symm⟩)
    · exact Or.inr hx

/-- **C165.** For every matrix — any number of columns, also not a multiple of the tile — whose weights fit the
width: wherever the packed bytes are in memory, `unpack_weights` leaves in the four arrays exactly the original
weights, scales, zeros and biases, and touches nothing else. -/
theorem C165_round_trip {c : Cfg} {w : Wt} (h : c.Ok) (hl : c.lut = false) (hw : w.Ok c) (h8 : 8 ∣ w.k)
    (hfit : ∀ a, a < w.n * w.k → -(2 ^ (c.bits - 1)) ≤ (w.ints a).toInt ∧ (w.ints a).toInt < 2 ^ (c.bits - 1)) :
    ∃ cd L, codecOf c = some cd ∧ packWeights c w = some L ∧
      ∀ mem : Mem, At mem 0 L → ∀ old : Slot × Nat → Val,
        let out := applyW old (unpackWeights c cd w.n w.k w.gs w.zeros.isSome w.bias.isSome mem)
        (∀ a, out (.qvals, a) = if a < w.n * w.k then .byte (w.ints a) else old (.qvals, a)) ∧
        (∀ a, out (.scales, a) = if a < w.n * w.groups then .word (w.scales a) else old (.scales, a)) ∧
        (∀ a, out (.zeros, a) = match w.zeros with
          | some z => if a < w.n * w.groups then .byte (z a) else old (.zeros, a)
          | none => old (.zeros, a)) ∧
        (∀ a, out (.bias, a) = match w.bias with
          | some b => if a < w.n then .word (b a) else old (.bias, a)
          | none => old (.bias, a)) := by
  have hfit' : ∀ a, a < w.n * w.k → c.Fits (w.ints a) := by
    intro a ha
    rw [Cfg.Fits, if_neg (by simp [hl])]
    exact hfit a ha
  obtain ⟨cd, h1, h2, h3, h4⟩ := codec_ok h
  refine ⟨cd, _, h1, by rw [packWeights, h1]; rfl, fun mem hm old => ?_⟩
  have hnr := h.nr_pos
  have hts : ∀ t, t * c.nr * sizePerN w.k w.gs c.bits w.zeros.isSome w.bias.isSome = 0 + t * tileSize c w := by
    intro t
    rw [tileSize, hl]
    simp
    ring
  -- one tile
  have tile : ∀ t, t < steps w.n c.nr → Gets w (fun z => (∃ g, g < w.k / w.gs ∧ GroupReq c w (t * c.nr) g z) ∨
      ∃ b j, w.bias = some b ∧ j < c.nr ∧ t * c.nr + j < w.n ∧ z = ((Slot.bias, t * c.nr + j), Val.word (b (t * c.nr + j))))
      (unpackTile c cd w.n (t * c.nr) w.k w.gs w.zeros.isSome w.bias.isSome mem (fun _ => 0)
        ⟨t * c.nr * sizePerN w.k w.gs c.bits w.zeros.isSome w.bias.isSome, 0⟩).1 := by
    intro t ht
    have hat := tile_at h hw h3 h8 hm t ht
    rw [← hts] at hat
    have hr : Reads (unpackTile c cd w.n (t * c.nr) w.k w.gs w.zeros.isSome w.bias.isSome)
        ((List.range (w.k / w.gs)).flatMap (groupBytes c w cd (t * c.nr)) ++ (biasBytes c w (t * c.nr) ++ [])) []
        (Gets w (fun z => (∃ g, g < w.k / w.gs ∧ GroupReq c w (t * c.nr) g z) ∨
          ∃ b j, w.bias = some b ∧ j < c.nr ∧ t * c.nr + j < w.n ∧ z = ((Slot.bias, t * c.nr + j), Val.word (b (t * c.nr + j))))) := by
      refine Reads.bind (K := []) (K' := []) (collect fun g hg => group_reads h hw hl h4 hfit' (t * c.nr) g hg) fun q hq => ?_
      refine Reads.bind (K := []) (K' := []) (bias_reads (t * c.nr)) fun b hb => ?_
      exact Reads.pure (hq.append hb)
    rw [List.append_nil] at hr
    exact (hr mem (fun _ => 0) ⟨t * c.nr * sizePerN w.k w.gs c.bits w.zeros.isSome w.bias.isSome, 0⟩ hat
      (by intro i hi; simp at hi)).1
  -- all tiles
  obtain ⟨ws, hws⟩ : ∃ ws, ws = unpackWeights c cd w.n w.k w.gs w.zeros.isSome w.bias.isSome mem := ⟨_, rfl⟩
  have sound : ∀ x ∈ ws, Wanted w x := by
    intro x hx
    rw [hws, unpackWeights, List.mem_flatMap] at hx
    obtain ⟨t, ht, hx⟩ := hx
    exact (tile t (List.mem_range.mp ht)).1 x hx
  have col : ∀ j, j < w.n → ∃ t r, t < steps w.n c.nr ∧ r < c.nr ∧ t * c.nr + r = j := by
    intro j hj
    refine ⟨j / c.nr, j % c.nr, ?_, Nat.mod_lt _ hnr, by rw [Nat.mul_comm]; exact Nat.div_add_mod j c.nr⟩
    exact lt_steps hnr (lt_of_le_of_lt (Nat.div_mul_le_self j c.nr) hj)
  have mem_of : ∀ t, t < steps w.n c.nr → ∀ x, x ∈ (unpackTile c cd w.n (t * c.nr) w.k w.gs w.zeros.isSome w.bias.isSome mem (fun _ => 0)
        ⟨t * c.nr * sizePerN w.k w.gs c.bits w.zeros.isSome w.bias.isSome, 0⟩).1 → x ∈ ws := by
    intro t ht x hx
    rw [hws, unpackWeights, List.mem_flatMap]
    exact ⟨t, List.mem_range.mpr ht, hx⟩
  have grp : ∀ a, a < w.n * (w.k / w.gs) → ∃ j g, j < w.n ∧ g < w.k / w.gs ∧ a = j * (w.k / w.gs) + g := by
    intro a ha
    have h0 : 0 < w.k / w.gs := by
      rcases Nat.eq_zero_or_pos (w.k / w.gs) with h0 | h0
      · rw [h0] at ha; omega
      · exact h0
    exact ⟨a / (w.k / w.gs), a % (w.k / w.gs), by rw [Nat.div_lt_iff_lt_mul h0]; exact ha, Nat.mod_lt _ h0,
      by rw [Nat.mul_comm]; exact (Nat.div_add_mod a _).symm⟩
  have cq : ∀ a, a < w.n * w.k → ((Slot.qvals, a), Val.byte (w.ints a)) ∈ ws := by
    intro a ha
    have hk : 0 < w.k := by
      rcases Nat.eq_zero_or_pos w.k with h0 | h0
      · rw [h0] at ha; omega
      · exact h0
    have hj : a / w.k < w.n := by rw [Nat.div_lt_iff_lt_mul hk]; exact ha
    obtain ⟨t, r, ht, hr, htr⟩ := col _ hj
    have hx : a % w.k < w.k := Nat.mod_lt _ hk
    have hg : a % w.k / w.gs < w.k / w.gs := Nat.div_lt_div_of_lt_of_dvd hw.k hx
    have h5 := Nat.div_add_mod (a % w.k) w.gs
    have h6 := Nat.div_add_mod a w.k
    have e6 : (t * c.nr + r) * w.k + (a % w.k / w.gs * w.gs + a % w.k % w.gs) = a := by
      rw [htr, Nat.mul_comm _ w.gs, h5, Nat.mul_comm, h6]
    refine mem_of t ht _ ((tile t ht).2 _ (Or.inl ⟨_, hg, Or.inl ⟨r, a % w.k % w.gs, hr, by rw [htr]; exact hj, Nat.mod_lt _ hw.gs, ?_⟩⟩))
    rw [e6]
  have cs : ∀ a, a < w.n * (w.k / w.gs) → ((Slot.scales, a), Val.word (w.scales a)) ∈ ws := by
    intro a ha
    obtain ⟨j, g, hj, hg, rfl⟩ := grp a ha
    obtain ⟨t, r, ht, hr, rfl⟩ := col j hj
    exact mem_of t ht _ ((tile t ht).2 _ (Or.inl ⟨g, hg, Or.inr (Or.inl ⟨r, hr, hj, rfl⟩)⟩))
  have cz : ∀ z, w.zeros = some z → ∀ a, a < w.n * (w.k / w.gs) → ((Slot.zeros, a), Val.byte (z a)) ∈ ws := by
    intro z hz a ha
    obtain ⟨j, g, hj, hg, rfl⟩ := grp a ha
    obtain ⟨t, r, ht, hr, rfl⟩ := col j hj
    exact mem_of t ht _ ((tile t ht).2 _ (Or.inl ⟨g, hg, Or.inr (Or.inr ⟨z, r, hz, hr, hj, rfl⟩)⟩))
  have cb : ∀ b, w.bias = some b → ∀ a, a < w.n → ((Slot.bias, a), Val.word (b a)) ∈ ws := by
    intro b hb a ha
    obtain ⟨t, r, ht, hr, rfl⟩ := col a ha
    exact mem_of t ht _ ((tile t ht).2 _ (Or.inr ⟨b, r, hb, hr, ha, rfl⟩))
  dsimp only
  rw [← hws]
  refine ⟨fun a => ?_, fun a => ?_, fun a => ?_, fun a => ?_⟩
  · by_cases ha : a < w.n * w.k
    · rw [if_pos ha]
      refine applyW_same _ _ _ _ (fun v hv => ?_) (cq a ha)
      rcases sound _ hv with ⟨_, _, he⟩ | ⟨_, _, he⟩ | ⟨_, _, _, _, he⟩ | ⟨_, _, _, _, he⟩ <;> simp_all
    · rw [if_neg ha]
      refine applyW_other _ _ _ fun v hv => ?_
      rcases sound _ hv with ⟨_, _, he⟩ | ⟨_, _, he⟩ | ⟨_, _, _, _, he⟩ | ⟨_, _, _, _, he⟩
      · simp only [Prod.mk.injEq] at he
        obtain ⟨⟨-, rfl⟩, -⟩ := he
        exact ha (by assumption)
      all_goals simp at he
  · by_cases ha : a < w.n * w.groups
    · rw [if_pos ha]
      refine applyW_same _ _ _ _ (fun v hv => ?_) (cs a ha)
      rcases sound _ hv with ⟨_, _, he⟩ | ⟨_, _, he⟩ | ⟨_, _, _, _, he⟩ | ⟨_, _, _, _, he⟩ <;> simp_all
    · rw [if_neg ha]
      refine applyW_other _ _ _ fun v hv => ?_
      rcases sound _ hv with ⟨_, _, he⟩ | ⟨_, hlt, he⟩ | ⟨_, _, _, _, he⟩ | ⟨_, _, _, _, he⟩
      · simp at he
      · simp only [Prod.mk.injEq] at he
        obtain ⟨⟨-, rfl⟩, -⟩ := he
        exact ha hlt
      all_goals simp at he
  · have other : (∀ z, w.zeros = some z → ¬ a < w.n * w.groups) → applyW old ws (.zeros, a) = old (.zeros, a) := by
      intro hno
      refine applyW_other _ _ _ fun v hv => ?_
      rcases sound _ hv with ⟨_, _, he⟩ | ⟨_, hlt, he⟩ | ⟨z, _, hz, hlt, he⟩ | ⟨_, _, _, _, he⟩
      · simp at he
      · simp at he
      · simp only [Prod.mk.injEq] at he
        obtain ⟨⟨-, rfl⟩, -⟩ := he
        exact hno z hz hlt
      · simp at he
    cases hz : w.zeros with
    | none => exact other (by simp [hz])
    | some z =>
      by_cases ha : a < w.n * w.groups
      · show _ = if a < w.n * w.groups then _ else _
        rw [if_pos ha]
        refine applyW_same _ _ _ _ (fun v hv => ?_) (cz z hz a ha)
        rcases sound _ hv with ⟨_, _, he⟩ | ⟨_, _, he⟩ | ⟨_, _, _, _, he⟩ | ⟨_, _, _, _, he⟩ <;> simp_all
      · show _ = if a < w.n * w.groups then _ else _
        rw [if_neg ha]
        exact other (fun _ _ => ha)
  · have other : (∀ z, w.bias = some z → ¬ a < w.n) → applyW old ws (.bias, a) = old (.bias, a) := by
      intro hno
      refine applyW_other _ _ _ fun v hv => ?_
      rcases sound _ hv with ⟨_, _, he⟩ | ⟨_, hlt, he⟩ | ⟨z, _, hz, hlt, he⟩ | ⟨z, _, hz, hlt, he⟩
      · simp at he
      · simp at he
      · simp at he
      · simp only [Prod.mk.injEq] at he
        obtain ⟨⟨-, rfl⟩, -⟩ := he
        exact hno z hz hlt
    cases hz : w.bias with
    | none => exact other (by simp [hz])
    | some z =>
      by_cases ha : a < w.n
      · show _ = if a < w.n then _ else _
        rw [if_pos ha]
        refine applyW_same _ _ _ _ (fun v hv => ?_) (cb z hz a ha)
        rcases sound _ hv with ⟨_, _, he⟩ | ⟨_, _, he⟩ | ⟨_, _, _, _, he⟩ | ⟨_, _, _, _, he⟩ <;> simp_all
      · show _ = if a < w.n then _ else _
        rw [if_neg ha]
        exact other (fun _ _ => ha)

/-- Non-vacuity: three-bit weights, eight columns of sixteen in a block, eleven columns. -/
example : (Cfg.mk 3 8 16 2 false).Ok ∧ (Wt.mk 11 64 32 (fun _ => 3) 0 (fun _ => 0) (fun _ => 0) none none).Ok ⟨3, 8, 16, 2, false⟩ := by
  refine ⟨⟨by decide, by decide, by decide, by decide⟩, ⟨by decide, by decide, by decide⟩⟩

end Verif.Bits
