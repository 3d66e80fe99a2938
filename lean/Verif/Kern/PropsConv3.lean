import Verif.Kern.PropsConv

/-! C127, three dimensions. -/

namespace Verif.Kern

open Verif.Tensor (numel InB lin lin_lt)

variable {α : Type} [CommRing α]

theorem lin5 (A B C D E a b c d e : Nat) :
    lin [A, B, C, D, E] [a, b, c, d, e] = a * (B * (C * (D * E))) + (b * (C * (D * E)) + (c * (D * E) + (d * E + e))) := by
  simp [lin, numel]

theorem inB5 {A B C D E : Nat} {ix : List Nat} (h : InB [A, B, C, D, E] ix) :
    ∃ a b c d e, ix = [a, b, c, d, e] ∧ a < A ∧ b < B ∧ c < C ∧ d < D ∧ e < E := by
  match ix, h with
  | [a, b, c, d, e], h => exact ⟨a, b, c, d, e, rfl, h.1, h.2.1, h.2.2.1, h.2.2.2.1, h.2.2.2.2.1⟩

theorem conv3Sum_eq {o : Conv3Opts} {B D H W od oh ow : Nat} {x w : Ten α} {bias : Option (Nat → α)}
    (hx : x.Is [B, o.cin, D, H, W]) (hw : w.Is [o.cout, o.cin, o.kd, o.kh, o.kw]) (hd : OutLen od D o.kd o.sd 0 1)
    (hh : OutLen oh H o.kh o.sh 0 1) (hwd : OutLen ow W o.kw o.sw 0 1) {b oc e y z : Nat} (hb : b < B) (hoc : oc < o.cout)
    (he : e < od) (hy : y < oh) (hz : z < ow) :
    conv3Sum o D H W x.data w.data bias b oc e y (z * o.sw) =
      conv3At x w bias o.cin o.kd o.kh o.kw o.sd o.sh o.sw b oc e y z := by
  have he := (hd e).mp he
  have hy := (hh y).mp hy
  have hz := (hwd z).mp hz
  unfold conv3Sum conv3At
  have key : each o.cin (fun c => each o.kd fun h => each o.kh fun i => each o.kw fun j s =>
    s + x.data (b * (o.cin * (D * (H * W))) + (c * (D * (H * W)) + (e * o.sd + h) * (H * W) + (y * o.sh + i) * W) + z * o.sw + j) *
      w.data (oc * (o.cin * (o.kd * (o.kh * o.kw))) + c * (o.kd * (o.kh * o.kw)) + h * (o.kh * o.kw) + i * o.kw + j)) (0 : α)
      = ∑ c ∈ Finset.range o.cin, ∑ h ∈ Finset.range o.kd, ∑ i ∈ Finset.range o.kh, ∑ j ∈ Finset.range o.kw,
        x.get [b, c, e * o.sd + h, y * o.sh + i, z * o.sw + j] * w.get [oc, c, h, i, j] := by
    rw [each_add (g := fun c => ∑ h ∈ Finset.range o.kd, ∑ i ∈ Finset.range o.kh, ∑ j ∈ Finset.range o.kw,
        x.get [b, c, e * o.sd + h, y * o.sh + i, z * o.sw + j] * w.get [oc, c, h, i, j]), zero_add]
    intro c hc s
    refine each_add ?_ s
    intro h hh s
    refine each_add ?_ s
    intro i hi s
    refine each_add ?_ s
    intro j hj s
    rw [hx.get (by exact ⟨hb, hc, by omega, by omega, by omega, trivial⟩), hw.get (by exact ⟨hoc, hc, hh, hi, hj, trivial⟩), lin5,
      lin5]
    simp only [Nat.add_assoc]
  rw [key]
  cases bias <;> simp

theorem conv3Row_fill (o : Conv3Opts) (D H W ow : Nat) (x w : Nat → α) (bias : Option (Nat → α)) (b oc e y c0 : Nat) :
    SeqFill (conv3Row o D H W ow x w bias b oc e y c0) c0 ow fun z => conv3Sum o D H W x w bias b oc e y (z * o.sw) := by
  unfold conv3Row
  split
  · rename_i h1
    have hlen : ow / 4 * 4 + (ow - ow / 4 * 4) = ow := by omega
    conv => arg 3; rw [← hlen]
    have hval : (fun z => conv3Sum o D H W x w bias b oc e y (z * o.sw)) = fun z => conv3Sum o D H W x w bias b oc e y z := by
      funext z; rw [h1, Nat.mul_one]
    rw [hval]
    refine SeqFill.append ?_ ?_
    · have := SeqFill.flatMap (n := ow / 4) (L := 4) (c := c0) (f := fun q => (List.range 4).map fun v =>
        Upd.put (c0 + (q * 4 + v)) (conv3Sum o D H W x w bias b oc e y (q * 4 + v)))
        (val := fun q v => conv3Sum o D H W x w bias b oc e y (q * 4 + v)) (by
          intro q _
          simp only [← Nat.add_assoc]
          exact SeqFill.pass)
      refine ⟨this.1, fun m j hj => ?_⟩
      rw [this.2 m j hj]
      have := Nat.div_add_mod j 4
      rw [Nat.mul_comm] at this
      beta_reduce
      rw [this]
    · simp only [← Nat.add_assoc]
      exact SeqFill.pass
  · exact SeqFill.pass

theorem conv3Forward_fill (o : Conv3Opts) (B D H W od oh ow : Nat) (x w : Nat → α) (bias : Option (Nat → α)) (m : Nat → α) :
    (∀ b < B, ∀ oc < o.cout, ∀ e < od, ∀ y < oh, ∀ z < ow,
      run (conv3Forward o B D H W od oh ow x w bias) m (lin [B, o.cout, od, oh, ow] [b, oc, e, y, z]) =
        conv3Sum o D H W x w bias b oc e y (z * o.sw)) ∧
    ∀ i, numel [B, o.cout, od, oh, ow] ≤ i → run (conv3Forward o B D H W od oh ow x w bias) m i = m i := by
  have hf : SeqFill (conv3Forward o B D H W od oh ow x w bias) 0 (B * (o.cout * (od * (oh * ow)))) _ :=
    SeqFill.flatMap (L := o.cout * (od * (oh * ow))) fun b _ => SeqFill.flatMap (L := od * (oh * ow)) fun oc _ =>
      SeqFill.flatMap (L := oh * ow) fun e _ => SeqFill.flatMap (L := ow) fun y _ => by
        have := conv3Row_fill o D H W ow x w bias b oc e y
          (b * (o.cout * (od * (oh * ow))) + (oc * (od * (oh * ow)) + e * (oh * ow) + y * ow))
        rw [show 0 + b * (o.cout * (od * (oh * ow))) + oc * (od * (oh * ow)) + e * (oh * ow) + y * ow =
          b * (o.cout * (od * (oh * ow))) + (oc * (od * (oh * ow)) + e * (oh * ow) + y * ow) by omega]
        exact this
  constructor
  · intro b hb oc hoc e he y hy z hz
    have q1 : y * ow + z < oh * ow := by
      calc y * ow + z < (y + 1) * ow := by rw [Nat.add_mul]; omega
        _ ≤ _ := Nat.mul_le_mul_right _ hy
    have q2 : e * (oh * ow) + (y * ow + z) < od * (oh * ow) := by
      calc e * (oh * ow) + (y * ow + z) < (e + 1) * (oh * ow) := by rw [Nat.add_mul]; omega
        _ ≤ _ := Nat.mul_le_mul_right _ he
    have q3 : oc * (od * (oh * ow)) + (e * (oh * ow) + (y * ow + z)) < o.cout * (od * (oh * ow)) := by
      calc _ < (oc + 1) * (od * (oh * ow)) := by rw [Nat.add_mul]; omega
        _ ≤ _ := Nat.mul_le_mul_right _ hoc
    have q4 : b * (o.cout * (od * (oh * ow))) + (oc * (od * (oh * ow)) + (e * (oh * ow) + (y * ow + z))) <
        B * (o.cout * (od * (oh * ow))) := by
      calc _ < (b + 1) * (o.cout * (od * (oh * ow))) := by rw [Nat.add_mul]; omega
        _ ≤ _ := Nat.mul_le_mul_right _ hb
    have := hf.2 m _ q4
    rw [Nat.zero_add] at this
    rw [lin5, this]
    simp only [(divmod q3).1, (divmod q3).2, (divmod q2).1, (divmod q2).2, (divmod q1).1, (divmod q1).2, (divmod hz).1, (divmod hz).2]
  · intro i hi
    refine hf.other m (Or.inr ?_)
    simpa [numel] using hi

omit [CommRing α] in
theorem exec_single {us : List (Upd α)} {m m' : Nat → α} (h : Exec [[us]] m m') : m' = run us m := by
  cases h with
  | cons s _ _ hi he =>
    cases he
    funext x
    have := hi.owner x 0 (by simp) (by intro k hk hne; simp at hk; omega) m
    simpa using this

/-- `C127`, three dimensions, on arm: with contiguous input and weight and a kernel that fits, one output per window position,
each the convolution there. -/
theorem C127_conv3d_partial (o : Conv3Opts) (x w : Ten α) (bias : Option (Nat → α)) (B D H W : Nat)
    (hx : x.Is [B, o.cin, D, H, W]) (hw : w.Is [o.cout, o.cin, o.kd, o.kh, o.kw]) (hk : 0 < o.kd ∧ 0 < o.kh ∧ 0 < o.kw)
    (hs : 0 < o.sd ∧ 0 < o.sh ∧ 0 < o.sw) (hf : o.kd ≤ D ∧ o.kh ≤ H ∧ o.kw ≤ W) :
    ∃ od oh ow ss, conv3 .arm o x w bias = .ok ([B, o.cout, od, oh, ow], ss) ∧ OutLen od D o.kd o.sd 0 1 ∧
      OutLen oh H o.kh o.sh 0 1 ∧ OutLen ow W o.kw o.sw 0 1 ∧
      Yields ss [B, o.cout, od, oh, ow] fun ix => conv3At x w bias o.cin o.kd o.kh o.kw o.sd o.sh o.sw
        (ix.getD 0 0) (ix.getD 1 0) (ix.getD 2 0) (ix.getD 3 0) (ix.getD 4 0) := by
  have hfd : 1 * (o.kd - 1) < D + 2 * 0 := by omega
  have hfh : 1 * (o.kh - 1) < H + 2 * 0 := by omega
  have hfw : 1 * (o.kw - 1) < W + 2 * 0 := by omega
  obtain ⟨od, hod⟩ : ∃ T, T = (D + 2 * 0 - 1 * (o.kd - 1) - 1) / o.sd + 1 := ⟨_, rfl⟩
  obtain ⟨oh, hoh⟩ : ∃ T, T = (H + 2 * 0 - 1 * (o.kh - 1) - 1) / o.sh + 1 := ⟨_, rfl⟩
  obtain ⟨ow, how⟩ : ∃ T, T = (W + 2 * 0 - 1 * (o.kw - 1) - 1) / o.sw + 1 := ⟨_, rfl⟩
  have od_ok : OutLen od D o.kd o.sd 0 1 := hod ▸ outLen_fits hs.1 hfd
  have oh_ok : OutLen oh H o.kh o.sh 0 1 := hoh ▸ outLen_fits hs.2.1 hfh
  have ow_ok : OutLen ow W o.kw o.sw 0 1 := how ▸ outLen_fits hs.2.2 hfw
  have hc : conv3 .arm o x w bias = .ok ([B, o.cout, od, oh, ow], [[conv3Forward o B D H W od oh ow x.data w.data bias]]) := by
    unfold conv3
    rw [hx.1]
    simp only [ne_eq, not_true_eq_false, if_false]
    rw [convLen_fits hk.1 hfd, ← hod, asSize_ok hs.1, convLen_fits hk.2.1 hfh, ← hoh, asSize_ok hs.2.1, convLen_fits hk.2.2 hfw,
      ← how, asSize_ok hs.2.2]
    rfl
  refine ⟨od, oh, ow, _, hc, od_ok, oh_ok, ow_ok, ?_⟩
  intro m m' hex
  rw [exec_single hex]
  obtain ⟨h1, h2⟩ := conv3Forward_fill o B D H W od oh ow x.data w.data bias m
  refine ⟨?_, h2⟩
  intro ix hix
  rw [out_get hix]
  obtain ⟨b, oc, e, y, z, rfl, hb, hoc, he, hy, hz⟩ := inB5 hix
  rw [h1 b hb oc hoc e he y hy z hz, conv3Sum_eq hx hw od_ok oh_ok ow_ok hb hoc he hy hz]
  rfl

/-- Refused: a wrong rank or a wrong number of channels. -/
theorem C127_conv3d_refuses (s : Simd) (o : Conv3Opts) (x w : Ten α) (bias : Option (Nat → α))
    (h : x.shape.length ≠ 5 ∨ x.shape.getD 1 0 ≠ o.cin) : ∃ e, conv3 s o x w bias = .error e := by
  unfold conv3
  split
  · rename_i batch cin _ _ _ he
    rw [he] at h
    simp at h
    exact ⟨_, if_pos h⟩
  · exact ⟨_, rfl⟩

/-- `C127` fails on x86: every accepted call returns its output as it was allocated. -/
theorem C127_conv3d_x86_violated (lanes : Nat) (o : Conv3Opts) (x w : Ten α) (bias : Option (Nat → α)) {shape : List Nat}
    {ss : List (List (List (Upd α)))} (h : conv3 (.x86 lanes) o x w bias = .ok (shape, ss)) (m m' : Nat → α)
    (hex : Exec ss m m') : m' = m := by
  have : ss = [] := by
    unfold conv3 at h
    split at h
    · split at h
      · cases h
      · simp only [bind, Except.bind, pure, Except.pure] at h
        split at h
        · cases h
        · split at h
          · cases h
          · split at h
            · cases h
            · cases h; rfl
    · cases h
  subst this
  cases hex
  rfl

/-! ## Concrete cases -/

/-- A kernel of `1 × 1 × 2`, stride one. -/
def c3Opts : Conv3Opts where
  cin := 1
  cout := 1
  kd := 1
  kh := 1
  kw := 2
  sd := 1
  sh := 1
  sw := 1

def c3In : Ten ℤ := ⟨[1, 1, 1, 1, 7], [7, 7, 7, 7, 1], fun i => i⟩
def c3W : Ten ℤ := ⟨[1, 1, 1, 1, 2], [2, 2, 2, 2, 1], fun i => i + 1⟩

/-- The hypotheses of `C127_conv3d_partial` are met: six outputs, one vector of four and two single ones. -/
example : ∃ ss, conv3 .arm c3Opts c3In c3W (some fun _ => 10) = .ok ([1, 1, 1, 1, 6], ss) ∧ ∀ m m', Exec ss m m' →
    (outRows [1, 1, 1, 1, 6] m').get [0, 0, 0, 0, 0] = 12 ∧ (outRows [1, 1, 1, 1, 6] m').get [0, 0, 0, 0, 5] = 27 := by
  obtain ⟨od, oh, ow, ss, h, h1, h2, h3, hc⟩ := C127_conv3d_partial c3Opts c3In c3W (some fun _ => 10) 1 1 1 7 ⟨rfl, rfl⟩ ⟨rfl, rfl⟩
    (by decide) (by decide) (by decide)
  have e1 : od = 1 := by
    have a := (h1 0).mpr (by decide)
    have b := (h1 1).not.mpr (by decide)
    omega
  have e2 : oh = 1 := by
    have a := (h2 0).mpr (by decide)
    have b := (h2 1).not.mpr (by decide)
    omega
  have e3 : ow = 6 := by
    have a := (h3 5).mpr (by decide)
    have b := (h3 6).not.mpr (by decide)
    omega
  subst e1 e2 e3
  refine ⟨ss, h, fun m m' hex => ?_⟩
  obtain ⟨hv, -⟩ := hc m m' hex
  exact ⟨(hv [0, 0, 0, 0, 0] (by simp [InB, c3Opts])).trans (by decide +kernel),
    (hv [0, 0, 0, 0, 5] (by simp [InB, c3Opts])).trans (by decide +kernel)⟩

/-- A kernel of width two with stride two. -/
def c3Wide : Conv3Opts := { c3Opts with sw := 2 }

/-- `C127` fails on arm: a kernel wider than the input, by less than the stride, is accepted, and the one output it gives is
computed from storage behind the input: two inputs with the same (single) element give different outputs. -/
theorem C127_conv3d_reads_outside_violated :
    let x (v : ℤ) : Ten ℤ := ⟨[1, 1, 1, 1, 1], [1, 1, 1, 1, 1], fun i => if i = 0 then 5 else v⟩
    ¬ OutLen 1 1 c3Wide.kw c3Wide.sw 0 1 ∧ (∀ v ix, InB [1, 1, 1, 1, 1] ix → (x v).get ix = 5) ∧
      ∀ v, ∃ ss, conv3 .arm c3Wide (x v) c3W none = .ok ([1, 1, 1, 1, 1], ss) ∧
        ∀ m m', Exec ss m m' → (outRows [1, 1, 1, 1, 1] m').get [0, 0, 0, 0, 0] = 5 + v * 2 := by
  refine ⟨?_, ?_, ?_⟩
  · intro h
    have := (h 0).mp (by omega)
    simp [c3Wide, c3Opts] at this
  · intro v ix hix
    obtain ⟨a, b, c, d, e, rfl, ha, hb, hc, hd, he⟩ := inB5 hix
    have : a = 0 ∧ b = 0 ∧ c = 0 ∧ d = 0 ∧ e = 0 := by omega
    obtain ⟨rfl, rfl, rfl, rfl, rfl⟩ := this
    simp [Ten.get, pos]
  · intro v
    refine ⟨_, rfl, fun m m' hex => ?_⟩
    rw [exec_single hex]
    have l1 : (convLen 1 1 1 0 1).toNat = 1 := by decide
    have l2 : (convLen 1 2 2 0 1).toNat = 1 := by decide
    simp [outRows, Ten.get, pos, rowStr, numel, conv3Forward, conv3Row, c3Wide, c3Opts, run, Upd.put, conv3Sum, each, c3W,
      List.range_succ, l1, l2]

end Verif.Kern
