import Verif.Bits.GemmLemmas

/-!
# One tile, all columns, all rows
-/

namespace Verif.Bits

open scoped BigOperators

/-! ## Specification -/

/-- The weight zero of a column's group. -/
def Wt.zeroAt (w : Wt) (j g : Nat) : Int := match w.zeros with
  | some z => (z (j * w.groups + g)).toInt
  | none => 0

/-- The integer weight of column `j` at position `x`: the stored value, or the entry of the column's table. -/
def Wt.weight (c : Cfg) (w : Wt) (j x : Nat) : Int :=
  if c.lut then (w.luts (j / (w.n / w.nLuts) * 2 ^ c.bits + (w.ints (j * w.k + x)).toNat)).toInt else (w.ints (j * w.k + x)).toInt

/-- The dequantised dot product of a group without its scales. -/
def groupDot (c : Cfg) (w : Wt) (a : Act) (i j g : Nat) : Int :=
  ∑ x ∈ Finset.range w.gs, (w.weight c j (g * w.gs + x) - w.zeroAt j g) * ((a.q i (g * w.gs + x)).toInt - (a.zero i).toInt)

/-- The groups up to `G`, accumulated in floating point. -/
def groupsVal {F : Type} (fl : Fl F) (c : Cfg) (w : Wt) (a : Act) (i j : Nat) : Nat → F
  | 0 => fl.zero
  | G + 1 => fl.mla (groupsVal fl c w a i j G) (fl.mul (fl.load (w.scales (j * w.groups + G))) (fl.load (a.scale i)))
      (fl.cvt (BitVec.ofInt 32 (groupDot c w a i j G)))

/-- With the bias. -/
def biasVal {F : Type} (fl : Fl F) (w : Wt) (j : Nat) (r : F) : F := match w.bias with
  | some b => fl.add r (fl.load (b j))
  | none => r

/-- The entry of row `i` and column `j` of the product. -/
def entry {F : Type} (fl : Fl F) (c : Cfg) (w : Wt) (a : Act) (hasClamp : Bool) (i j : Nat) : F :=
  if hasClamp then fl.clamp (biasVal fl w j (groupsVal fl c w a i j w.groups)) else biasVal fl w j (groupsVal fl c w a i j w.groups)

/-- The tables: every table serves whole tiles, or there is one for all columns. -/
def Wt.LutOk (c : Cfg) (w : Wt) : Prop :=
  c.lut = true → 0 < w.n / w.nLuts ∧ (w.n / w.nLuts = w.n ∨ c.nr ∣ w.n / w.nLuts)

/-! ## Groups -/

theorem colByte_weight {c : Cfg} {w : Wt} (h : c.Ok) (hl : w.LutOk c) (hfit : ∀ a, a < w.n * w.k → c.Fits (w.ints a)) {t j x : Nat}
    (hj : j < c.nr) (hn : t * c.nr + j < w.n) (hx : x < w.k) :
    (colByte c w (t * c.nr) j x).toInt = w.weight c (t * c.nr + j) x := by
  unfold colByte Wt.weight
  cases hc : c.lut with
  | false => rfl
  | true =>
    rw [if_pos rfl, if_pos rfl]
    obtain ⟨h0, hl⟩ := hl hc
    have hf := hfit ((t * c.nr + j) * w.k + x) (grp_adr hn hx)
    rw [Cfg.Fits, if_pos hc] at hf
    have h16 : 2 ^ c.bits ≤ 16 := Nat.pow_le_pow_right (n := 2) (by decide) (h.lut hc).1
    rw [tbl, if_pos (lt_of_lt_of_le hf h16), lutAt, if_pos hf]
    congr 4
    rcases hl with hl | ⟨q, hq⟩
    · rw [hl, Nat.div_eq_of_lt hn, Nat.div_eq_of_lt (by omega)]
    · rw [hq, ← Nat.div_div_eq_div_mul, ← Nat.div_div_eq_div_mul, Nat.mul_div_cancel _ h.nr_pos]
      congr 1
      rw [Nat.mul_comm, Nat.mul_add_div h.nr_pos, Nat.div_eq_of_lt hj, Nat.add_zero]

/-- The bytes of a group behind the table. -/
def groupCore (c : Cfg) (w : Wt) (cd : Codec) (n g : Nat) : List Byte :=
  ((List.range (steps w.gs c.kr)).flatMap fun b =>
      block cd fun i => (packValues c (buffer c w n (g * w.gs + b * c.kr))).getD i 0)
  ++ (((List.range c.nr).flatMap fun j => le32 (if n + j < w.n then w.scales ((n + j) * w.groups + g) else 0))
  ++ (((List.range c.nr).flatMap fun j => le32 (BitVec.ofInt 32 (qvalsSum c w n (g * w.gs) j)))
  ++ zeroBytes c w n g))

theorem groups_core (c : Cfg) (w : Wt) (cd : Codec) (n : Nat) : ∀ G, (List.range G).flatMap (groupBytes c w cd n) =
    (if c.lut ∧ 0 < G then (List.range 16).map (lutAt c w n) else []) ++ (List.range G).flatMap (groupCore c w cd n) := by
  intro G
  induction G with
  | zero => simp
  | succ G ih =>
    rw [List.range_succ, List.flatMap_append, ih, List.flatMap_append]
    simp only [List.flatMap_cons, List.flatMap_nil, List.append_nil]
    have e : groupBytes c w cd n G = (if c.lut ∧ G = 0 then (List.range 16).map (lutAt c w n) else []) ++ groupCore c w cd n G := by
      simp [groupBytes, groupCore]
    rw [e]
    cases c.lut with
    | false => simp
    | true =>
      by_cases h0 : G = 0
      · subst h0; simp
      · have : 0 < G := by omega
        simp [h0, this]

theorem qvalsSum_eq {c : Cfg} {w : Wt} (h : c.Ok) (hw : w.Ok c) {n g j : Nat} (hn : n + j < w.n) :
    qvalsSum c w n (g * w.gs) j = ∑ x ∈ Finset.range w.gs, (colByte c w n j (g * w.gs + x)).toInt := by
  have kr0 := h.kr_pos
  unfold qvalsSum
  rw [list_sum_range, steps_dvd kr0 hw.kr]
  have e := sum_tiles (fun x => (colByte c w n j (g * w.gs + x)).toInt) (w.gs / c.kr) c.kr
  rw [Nat.div_mul_cancel hw.kr] at e
  rw [← e]
  refine Finset.sum_congr rfl fun b _ => ?_
  rw [if_pos hn]
  have hb : ∀ x, x < c.kr → buffer c w n (g * w.gs + b * c.kr) (c.kr * j + x) = w.ints ((n + j) * w.k + (g * w.gs + (b * c.kr + x))) := by
    intro x hx
    rw [buffer, Nat.mul_add_div kr0, Nat.div_eq_of_lt hx, Nat.add_zero, if_pos hn, Nat.mul_add_mod, Nat.mod_eq_of_lt hx, Nat.add_assoc]
  unfold colByte
  cases c.lut with
  | true =>
    rw [if_pos rfl, computeSum_eq]
    refine Finset.sum_congr rfl fun x hx => ?_
    rw [if_pos rfl, hb x (Finset.mem_range.mp hx)]
  | false =>
    rw [if_neg (by simp), computeSum_eq]
    refine Finset.sum_congr rfl fun x hx => ?_
    rw [if_neg (by simp), hb x (Finset.mem_range.mp hx)]

theorem tmp_algebra (gs : Nat) (W A : Nat → Int) (z az : Int) :
    (∑ x ∈ Finset.range gs, W x * A x) - (∑ x ∈ Finset.range gs, W x) * az - z * (∑ x ∈ Finset.range gs, A x) + z * ((gs : Int) * az)
      = ∑ x ∈ Finset.range gs, (W x - z) * (A x - az) := by
  induction gs with
  | zero => simp
  | succ n ih =>
    rw [Finset.sum_range_succ, Finset.sum_range_succ, Finset.sum_range_succ, Finset.sum_range_succ, ← ih]
    push_cast
    ring

/-- The dot products of a group are exact modulo `2^32`. -/
def DotsOk (c : Cfg) (w : Wt) (a : Act) (cd : Codec) (i n : Nat) (dots : M (Nat → BitVec 32)) : Prop :=
  ∀ g, g < w.k / w.gs → Reads dots
    ((List.range (steps w.gs c.kr)).flatMap fun b => block cd fun i => (packValues c (buffer c w n (g * w.gs + b * c.kr))).getD i 0)
    ((List.range w.gs).map fun x => a.q i (g * w.gs + x))
    fun d => ∀ j, j < c.nr → n + j < w.n → d j = BitVec.ofInt 32 (dotTo c w a i n g j w.gs)

theorem pairs_ok {c : Cfg} {w : Wt} {cd : Codec} (a : Act) (h : c.Ok) (hw : w.Ok c) (h16 : c.kr = 16) (h2 : c.sr = 2) (hev : 2 ∣ c.nr)
    (hcd : ∀ u : Nat → Byte, (∀ i, c.Fits (u i)) → Reads (blockW cd) (block cd u) [] fun y => ∀ i, i < c.kr * c.nr → y i = u i)
    (hfit : ∀ a, a < w.n * w.k → c.Fits (w.ints a)) (i n : Nat) (t : Nat → Byte) (ht : c.lut = true → ∀ i, i < 16 → t i = lutAt c w n i) :
    DotsOk c w a cd i n (dotsPairs c.nr w.gs cd (lutOf c t)) := by
  intro g hg
  have hst : steps w.gs 16 * 16 = w.gs := by
    rw [steps_dvd (by decide) (h16 ▸ hw.kr), Nat.div_mul_cancel (h16 ▸ hw.kr)]
  have e := map_blocks (fun x => a.q i (g * w.gs + x)) (steps w.gs 16) 16
  rw [hst] at e
  rw [← e, ← List.append_nil (List.flatMap _ _), ← List.append_nil (List.flatMap _ (List.range (steps w.gs 16)))]
  unfold dotsPairs
  have hloop := Reads.loop (n := steps w.gs 16) (init := fun _ _ => (0 : BitVec 32))
    (f := fun _ acc => stepPairs c.nr cd (lutOf c t) acc)
    (L := fun b => block cd fun i => (packValues c (buffer c w n (g * w.gs + b * c.kr))).getD i 0)
    (K := fun b => (List.range 16).map fun x => a.q i (g * w.gs + (b * 16 + x)))
    (fun b acc => ∀ j, j < c.nr → n + j < w.n → padd acc j = BitVec.ofInt 32 (dotTo c w a i n g j (b * 16)))
    (by
      intro j _ _
      simp [padd, dotTo])
    (fun b acc hb hacc => stepPairs_reads a h hw h16 h2 hev hcd hfit i n g b hg (by rw [h16]; exact hb) t ht acc hacc)
  rw [hst] at hloop
  rw [show steps w.gs c.kr = steps w.gs 16 by rw [h16]]
  exact Reads.bind hloop fun acc hacc => Reads.pure hacc

theorem one_ok {c : Cfg} {w : Wt} {cd : Codec} (a : Act) (h : c.Ok) (hw : w.Ok c) (h32 : c.kr = 32) (h1 : c.nr = 1) (hl : c.lut = false)
    (hcd : ∀ u : Nat → Byte, (∀ i, c.Fits (u i)) → Reads (blockW cd) (block cd u) [] fun y => ∀ i, i < c.kr * c.nr → y i = u i)
    (hfit : ∀ a, a < w.n * w.k → c.Fits (w.ints a)) (i n : Nat) (hn : n < w.n) :
    DotsOk c w a cd i n (dots1 w.gs cd) := by
  intro g hg
  have hst : steps w.gs 32 * 32 = w.gs := by
    rw [steps_dvd (by decide) (h32 ▸ hw.kr), Nat.div_mul_cancel (h32 ▸ hw.kr)]
  have e := map_blocks (fun x => a.q i (g * w.gs + x)) (steps w.gs 32) 32
  rw [hst] at e
  rw [← e, ← List.append_nil (List.flatMap _ _), ← List.append_nil (List.flatMap _ (List.range (steps w.gs 32)))]
  unfold dots1
  have hloop := Reads.loop (n := steps w.gs 32) (init := fun _ => (0 : BitVec 32))
    (f := fun _ acc => step1 cd acc)
    (L := fun b => block cd fun i => (packValues c (buffer c w n (g * w.gs + b * c.kr))).getD i 0)
    (K := fun b => (List.range 32).map fun x => a.q i (g * w.gs + (b * 32 + x)))
    (fun b acc => acc 0 + acc 1 + acc 2 + acc 3 = BitVec.ofInt 32 (dotTo c w a i n g 0 (b * 32)))
    (by simp [dotTo])
    (fun b acc hb hacc => step1_reads a h hw h32 h1 hl hcd hfit i n g b hn hg (by rw [h32]; exact hb) acc hacc)
  rw [hst] at hloop
  rw [show steps w.gs c.kr = steps w.gs 32 by rw [h32]]
  refine Reads.bind hloop fun acc hacc => Reads.pure fun j hj _ => ?_
  obtain rfl : j = 0 := by omega
  exact hacc

theorem tmp_reads {c : Cfg} {w : Wt} {a : Act} (h : c.Ok) (hw : w.Ok c) (hl : w.LutOk c)
    (hfit : ∀ a, a < w.n * w.k → c.Fits (w.ints a)) (i t g : Nat) (hg : g < w.k / w.gs) (dot sums : Nat → BitVec 32)
    (hd : ∀ j, j < c.nr → t * c.nr + j < w.n → dot j = BitVec.ofInt 32 (dotTo c w a i (t * c.nr) g j w.gs))
    (hs : ∀ j, j < c.nr → sums j = BitVec.ofInt 32 (qvalsSum c w (t * c.nr) (g * w.gs) j)) :
    Reads (tmpOf c.nr w.gs w.zeros.isSome ((a.zero i).signExtend 32) dot sums) (zeroBytes c w (t * c.nr) g)
      (if w.zeros.isSome then le32 (BitVec.ofInt 32 (computeSum (fun x => a.q i (g * w.gs + x)) w.gs)) else [])
      fun r => ∀ j, j < c.nr → t * c.nr + j < w.n → r j = BitVec.ofInt 32 (groupDot c w a i (t * c.nr + j) g) := by
  have hx : ∀ x, x < w.gs → g * w.gs + x < w.k := by
    intro x hx
    have := grp_adr hg hx
    rw [Nat.div_mul_cancel hw.k] at this
    exact this
  have gd : ∀ j, j < c.nr → t * c.nr + j < w.n → groupDot c w a i (t * c.nr + j) g =
      dotTo c w a i (t * c.nr) g j w.gs - (∑ x ∈ Finset.range w.gs, (colByte c w (t * c.nr) j (g * w.gs + x)).toInt) * (a.zero i).toInt
        - w.zeroAt (t * c.nr + j) g * (∑ x ∈ Finset.range w.gs, (a.q i (g * w.gs + x)).toInt)
        + w.zeroAt (t * c.nr + j) g * ((w.gs : Int) * (a.zero i).toInt) := by
    intro j hj hn
    rw [groupDot, dotTo, tmp_algebra]
    refine Finset.sum_congr rfl fun x hxx => ?_
    rw [colByte_weight h hl hfit hj hn (hx x (Finset.mem_range.mp hxx))]
  have az : (a.zero i).signExtend 32 = BitVec.ofInt 32 (a.zero i).toInt := rfl
  unfold tmpOf zeroBytes
  cases hz : w.zeros with
  | none =>
    refine Reads.pure fun j hj hn => ?_
    rw [hd j hj hn, hs j hj, gd j hj hn, qvalsSum_eq h hw hn, az]
    have z0 : w.zeroAt (t * c.nr + j) g = 0 := by simp [Wt.zeroAt, hz]
    rw [z0, zero_mul, zero_mul, sub_zero, add_zero]
    simp only [ofInt_cast]
    push_cast
    ring
  | some z =>
    rw [if_pos (by rfl), if_pos (by rfl), computeSum_eq]
    show Reads _ ((List.range c.nr).flatMap fun j => le32 (if t * c.nr + j < w.n then (z ((t * c.nr + j) * w.groups + g)).signExtend 32 else 0)) _ _
    rw [← List.nil_append (List.flatMap _ _), ← List.append_nil (le32 _)]
    refine Reads.bind (Reads.wordA _) fun asum ha => ?_
    rw [← List.append_nil (List.flatMap _ _), ← List.nil_append ([] : List Byte)]
    refine Reads.bind (K := []) (K' := []) (Reads.words _ _) fun wz hwz => ?_
    refine Reads.pure fun j hj hn => ?_
    rw [hd j hj hn, hs j hj, gd j hj hn, qvalsSum_eq h hw hn, az, ha, hwz j hj, if_pos hn]
    have ez : (z ((t * c.nr + j) * w.groups + g)).signExtend 32 = BitVec.ofInt 32 (w.zeroAt (t * c.nr + j) g) := by
      simp only [Wt.zeroAt, hz]
      rfl
    have eg : BitVec.ofNat 32 w.gs = BitVec.ofInt 32 (w.gs : Int) := (BitVec.ofInt_natCast 32 w.gs).symm
    rw [ez, eg]
    simp only [ofInt_cast]
    push_cast
    ring

theorem gemmGroup_reads {F : Type} (fl : Fl F) {c : Cfg} {w : Wt} {a : Act} {cd : Codec} (h : c.Ok) (hw : w.Ok c) (hl : w.LutOk c)
    (hfit : ∀ a, a < w.n * w.k → c.Fits (w.ints a)) (i t : Nat) {dots : M (Nat → BitVec 32)} (hdots : DotsOk c w a cd i (t * c.nr) dots)
    (g : Nat) (hg : g < w.k / w.gs) (res : Nat → F)
    (hres : ∀ j, j < c.nr → t * c.nr + j < w.n → res j = groupsVal fl c w a i (t * c.nr + j) g) :
    Reads (gemmGroup fl c.nr w.gs w.zeros.isSome dots (fl.load (a.scale i)) ((a.zero i).signExtend 32) res)
      (groupCore c w cd (t * c.nr) g) (actGroup a w.gs w.zeros.isSome i g)
      fun r => ∀ j, j < c.nr → t * c.nr + j < w.n → r j = groupsVal fl c w a i (t * c.nr + j) (g + 1) := by
  unfold gemmGroup groupCore actGroup
  refine Reads.bind (hdots g hg) fun dot hdot => ?_
  rw [← List.nil_append (if w.zeros.isSome = true then _ else _)]
  refine Reads.bind (Reads.words _ _) fun ws hws => ?_
  rw [← List.nil_append (if w.zeros.isSome = true then _ else _)]
  refine Reads.bind (Reads.words _ _) fun sums hsums => ?_
  rw [← List.append_nil (zeroBytes c w (t * c.nr) g), ← List.append_nil (if w.zeros.isSome = true then _ else _)]
  refine Reads.bind (tmp_reads h hw hl hfit i t g hg dot sums hdot hsums) fun tmp htmp => ?_
  refine Reads.pure fun j hj hn => ?_
  rw [hres j hj hn, hws j hj, if_pos hn, htmp j hj hn]
  rfl

theorem gemmBias_reads {F : Type} (fl : Fl F) {c : Cfg} {w : Wt} (n : Nat) (res : Nat → F) :
    Reads (gemmBias fl c.nr w.bias.isSome res) (biasBytes c w n) []
      fun r => ∀ j, j < c.nr → n + j < w.n → r j = biasVal fl w (n + j) (res j) := by
  unfold gemmBias biasBytes biasVal
  cases hb : w.bias with
  | none => exact Reads.pure fun j _ _ => rfl
  | some b =>
    rw [if_pos (by rfl)]
    show Reads _ ((List.range c.nr).flatMap fun j => le32 (if n + j < w.n then b (n + j) else 0)) _ _
    rw [← List.append_nil (List.flatMap _ _)]
    refine Reads.bind (K := []) (K' := []) (Reads.words _ _) fun y hy => Reads.pure fun j hj hn => ?_
    rw [hy j hj, if_pos hn]

/-- The activations of a row as the kernels read them. -/
def actGroups (a : Act) (w : Wt) (i : Nat) : List Byte := (List.range (w.k / w.gs)).flatMap (actGroup a w.gs w.zeros.isSome i)

theorem gemmTail_reads {F : Type} (fl : Fl F) {c : Cfg} {w : Wt} {a : Act} {cd : Codec} (h : c.Ok) (hw : w.Ok c) (hl : w.LutOk c)
    (hfit : ∀ a, a < w.n * w.k → c.Fits (w.ints a)) (hasClamp : Bool) (i t : Nat) {dots : M (Nat → BitVec 32)}
    (hdots : DotsOk c w a cd i (t * c.nr) dots) :
    Reads (gemmTail fl c.nr w.k w.gs w.zeros.isSome w.bias.isSome hasClamp dots (fl.load (a.scale i)) ((a.zero i).signExtend 32))
      ((List.range w.groups).flatMap (groupCore c w cd (t * c.nr)) ++ biasBytes c w (t * c.nr)) (actGroups a w i)
      fun r => ∀ j, j < c.nr → t * c.nr + j < w.n → r j = entry fl c w a hasClamp i (t * c.nr + j) := by
  unfold gemmTail
  rw [← List.append_nil (actGroups a w i)]
  refine Reads.bind (Reads.loop (fun g res => ∀ j, j < c.nr → t * c.nr + j < w.n → res j = groupsVal fl c w a i (t * c.nr + j) g)
    (fun j _ _ => rfl) (fun g res hg hres => gemmGroup_reads fl h hw hl hfit i t hdots g hg res hres)) fun res hres => ?_
  rw [← List.append_nil (biasBytes c w (t * c.nr)), ← List.nil_append ([] : List Byte)]
  refine Reads.bind (K := []) (K' := []) (gemmBias_reads fl (t * c.nr) res) fun r hr => Reads.pure fun j hj hn => ?_
  rw [hr j hj hn, hres j hj hn]
  rfl

end Verif.Bits
