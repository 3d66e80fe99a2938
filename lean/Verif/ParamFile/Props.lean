import Verif.ParamFile.Lemmas
/-
C16 (V2 round trip), C17 (V1 round trip), C39 (files written by the Python converter).
-/
namespace Verif.ParamFile

/-! ## Specification vocabulary -/

/-- A tensor that is its own storage: freshly created or loaded, not a slice, permutation or other
view of a larger storage. -/
structure Whole (t : Tensor) : Prop where
  off : t.off = 0
  stride : t.stride = rowStrides t.shape
  fits : Fits t.dtype t.shape t.store.length

/-- The parameter set the file is expected to contain: same names in the same order, and for each
the same dtype, shape, strides, offset and bytes. Only the storage's debug name becomes the key. -/
def expectV2 (ps : Params) : Params := ps.map fun p => (p.1, { p.2 with sname := p.1 })

def totalData (ps : Params) : Nat := (ps.map fun p => p.2.store.length).sum

/-- What the caller has to ensure for V2. -/
structure OkV2 (ps : Params) : Prop where
  names : ∀ p ∈ ps, p.1.length ≤ 255 ∧ (0 : UInt8) ∉ p.1
  distinct : (ps.map (·.1)).Nodup
  whole : ∀ p ∈ ps, Whole p.2 ∧ p.2.shape.length ≤ 16 ∧ p.2.dtype < 2 ^ 32
  count : ps.length < 2 ^ 32
  size : 532 + ps.length * 352 + totalData ps < 2 ^ 64

/-! ## C16 -/

theorem dataOut_ok (ps : Params) (h : ∀ p ∈ ps, Whole p.2) :
    dataOut ps = .ok (ps.flatMap fun p => p.2.store) := by
  induction ps with
  | nil => rfl
  | cons p ps ih =>
    obtain ⟨n, t⟩ := p
    have hw : Whole t := h (n, t) (by simp)
    simp only [dataOut, outData]
    rw [ih (fun p hp => h p (by simp [hp])), hw.off]
    simp [rd, bind_ok, pure, Except.pure]

/-- The descriptors the C++ V2 writer emits. -/
def descListV2 (pid : Nat → Nat) : Nat → Nat → Params → List Desc
  | _, _, [] => []
  | i, off, (n, t) :: ps =>
    ⟨pid i, t.dtype, t.store.length, off, t.shape.length, shapeField t.shape, cNameField n⟩
      :: descListV2 pid (i + 1) (off + t.store.length) ps

theorem descsV2_eq (pid : Nat → Nat) (i off : Nat) (ps : Params) :
    descsV2 pid i off ps = (descListV2 pid i off ps).flatMap encDesc := by
  induction ps generalizing i off with
  | nil => rfl
  | cons p ps ih => simp [descsV2, descListV2, ih]

theorem length_descListV2 (pid : Nat → Nat) (i off : Nat) (ps : Params) :
    (descListV2 pid i off ps).length = ps.length := by
  induction ps generalizing i off with
  | nil => rfl
  | cons p ps ih => simp [descListV2, ih]

theorem descListV2_entries (m : Bool) (f : List UInt8) (pid : Nat → Nat) (ps : Params) :
    ∀ (i off : Nat), (∀ p ∈ ps, p.1.length ≤ 255 ∧ (0 : UInt8) ∉ p.1) →
      (∀ p ∈ ps, Whole p.2 ∧ p.2.shape.length ≤ 16 ∧ p.2.dtype < 2 ^ 32) →
      off + totalData ps < 2 ^ 64 → Has f off (ps.flatMap fun p => p.2.store) →
      List.Forall₂ (fun d e => DescWF d ∧ entryV2 m f d = .ok e) (descListV2 pid i off ps)
        (expectV2 ps) := by
  induction ps with
  | nil => intro i off _ _ _ _; exact .nil
  | cons p ps ih =>
    intro i off hn hw hsz hf
    obtain ⟨n, t⟩ := p
    obtain ⟨hw1, hs, hdt⟩ := hw (n, t) (by simp)
    obtain ⟨hnl, hnz⟩ := hn (n, t) (by simp)
    simp only at hnl hnz hs hdt hw1
    rw [List.flatMap_cons] at hf
    simp only [totalData, List.map_cons, List.sum_cons] at hsz
    simp only [descListV2, expectV2, List.map_cons]
    refine .cons ⟨⟨hdt, ?_, ?_, ?_, ?_, ?_, ?_⟩, ?_⟩
      (ih _ _ (fun p hp => hn p (by simp [hp])) (fun p hp => hw p (by simp [hp])) ?_ hf.right)
    · simp only; omega
    · simp only; omega
    · simp only; omega
    · exact length_shapeField _ hs
    · exact shapeField_lt _ hw1.fits.dims
    · exact length_cNameField _
    · have := entryV2_ok m f
        ⟨pid i, t.dtype, t.store.length, off, t.shape.length, shapeField t.shape, cNameField n⟩
        n t.shape t.store hs rfl rfl (cstr_cNameField hnz hnl) rfl hw1.fits hf.left
      rw [this]
      rw [← hw1.off, ← hw1.stride]
    · simp only [totalData]; omega

/-- C16: writing any parameter set of whole tensors (with names of at most 255 bytes without NUL,
at most 16 dimensions and a file below 2^64 bytes) with V2 and reading the file back, memory-mapped
or not, yields exactly the same names, dtypes, shapes and bytes.
What is missing: views (see the violations below) and long names. -/
theorem v2_roundtrip_partial (m : Bool) (pid : Nat → Nat) (ps : Params) (h : OkV2 ps) :
    ∃ f, writeV2 pid ps = .ok f ∧ readV2 m f = .ok (expectV2 ps) := by
  refine ⟨_, by unfold writeV2; rw [dataOut_ok ps (fun p hp => (h.whole p hp).1)]; rfl, ?_⟩
  generalize hf : encHeader ps.length 532 ++ (descsV2 pid 0 (532 + ps.length * 352) ps ++
    ps.flatMap fun p => p.2.store) = f
  rw [descsV2_eq] at hf
  have hwf : ∀ (i off : Nat) (qs : Params), ((descListV2 pid i off qs).flatMap encDesc).length =
      ((descListV2 pid i off qs).map fun d => (encDesc d).length).sum := by
    intro i off qs; simp [List.length_flatMap]
  have hlen : ∀ (qs : Params) (i off : Nat),
      (∀ p ∈ qs, p.2.shape.length ≤ 16) →
      ((descListV2 pid i off qs).flatMap encDesc).length = qs.length * 352 := by
    intro qs
    induction qs with
    | nil => intro i off _; rfl
    | cons p qs ih =>
      intro i off hq
      obtain ⟨n, t⟩ := p
      have h16 : t.shape.length ≤ 16 := hq (n, t) (by simp)
      simp only [descListV2, List.flatMap_cons, List.length_append, List.length_cons]
      rw [ih _ _ (fun p hp => hq p (by simp [hp]))]
      simp [encDesc, length_shapeField _ h16, length_cNameField]
      omega
  have h1 : Has f 0 (encHeader ps.length 532) := ⟨[], _, by simp [← hf]; rfl, rfl⟩
  have h2 : Has f 532 ((descListV2 pid 0 (532 + ps.length * 352) ps).flatMap encDesc) :=
    ⟨_, _, hf.symm, by simp⟩
  have h3 : Has f (532 + ps.length * 352) (ps.flatMap fun p => p.2.store) := by
    refine ⟨encHeader ps.length 532 ++ (descListV2 pid 0 (532 + ps.length * 352) ps).flatMap encDesc,
      [], by simp [← hf], ?_⟩
    rw [List.length_append, hlen _ _ _ (fun p hp => (h.whole p hp).2.1)]; simp
  have := readV2_ok m f (descListV2 pid 0 (532 + ps.length * 352) ps) (expectV2 ps)
    (by rw [length_descListV2]; exact h.count) (by rw [length_descListV2]; exact h1)
    (descListV2_entries m f pid ps 0 _ h.names h.whole h.size h3) h2
    (by simpa [expectV2, List.map_map, Function.comp_def] using h.distinct)
  exact this

theorem rd_take {f : List UInt8} {off len k : Nat} {bs : List UInt8} (h : rd f off len = .ok bs)
    (hk : k ≤ len) : rd f off k = .ok (bs.take k) := by
  unfold rd at *
  split at h
  · rw [if_pos (by omega)]
    injection h with h
    subst h
    rw [List.take_take, Nat.min_eq_left hk]
  · cases h

/-- For *every* file (also damaged or foreign ones): if the streaming reader accepts it, the
memory-mapping reader accepts it too and yields the same parameters. -/
theorem v2_readers_agree (f : List UInt8) (ps : Params) (h : readV2 false f = .ok ps) :
    readV2 true f = .ok ps := by
  have hent : ∀ d e, entryV2 false f d = .ok e → entryV2 true f d = .ok e := by
    intro d e h
    unfold entryV2 at h ⊢
    split at h
    · cases h
    · rename_i hs
      rw [if_neg hs]
      simp only at h ⊢
      cases hc : createSize (d.shape.take d.shapeLen) d.ty with
      | error x => rw [hc] at h; cases h
      | ok sz =>
        rw [hc] at h
        simp only [bind_ok] at h ⊢
        unfold loadV2 at h ⊢
        simp only [Bool.false_eq_true, if_false, if_true] at h ⊢
        split at h
        · cases h
        · rename_i h1
          cases hr : rd f d.off d.size with
          | error x => rw [hr] at h; cases h
          | ok bs =>
            rw [hr, bind_ok] at h
            split at h
            · cases h
            · rename_i h2
              rw [if_neg h2]
              have : sz = d.size := by omega
              rw [this, hr]
              exact h
  have hloop : ∀ (k base i : Nat) (acc qs : Params), loopV2 false f base k i acc = .ok qs →
      loopV2 true f base k i acc = .ok qs := by
    intro k
    induction k with
    | zero => intro base i acc qs h; exact h
    | succ k ih =>
      intro base i acc qs h
      unfold loopV2 at h ⊢
      cases hr : rd f (base + i * 352) 352 with
      | error x => rw [hr] at h; cases h
      | ok b =>
        rw [hr, bind_ok] at h
        rw [bind_ok]
        cases he : entryV2 false f (parseDesc b) with
        | error x => rw [he] at h; cases h
        | ok e =>
          rw [he, bind_ok] at h
          rw [hent _ _ he, bind_ok]
          cases hp : push acc e.1 e.2 with
          | error x => rw [hp] at h; cases h
          | ok acc' =>
            rw [hp, bind_ok] at h
            rw [bind_ok]
            exact ih _ _ _ _ h
  unfold readV2 at h ⊢
  cases hr : rd f 0 532 with
  | error x => rw [hr] at h; cases h
  | ok b =>
    rw [hr, bind_ok] at h
    rw [bind_ok]
    simp only at h ⊢
    split at h
    · cases h
    · rename_i h1
      rw [if_neg h1]
      split at h
      · cases h
      · rename_i h2
        rw [if_neg h2]
        exact hloop _ _ _ _ _ h

/-! ### Concrete data for the examples and violations -/

def w1 : Tensor := ⟨[], 0, [2, 1], [1, 1], 0, [1, 2, 3, 4, 5, 6, 7, 8]⟩
def w2 : Tensor := ⟨[], 134, [3], [1], 0, [9, 10, 11]⟩

theorem whole_w1 : Whole w1 := ⟨rfl, rfl, ⟨by decide, by decide, by decide, by decide, by decide⟩⟩
theorem whole_w2 : Whole w2 := ⟨rfl, rfl, ⟨by decide, by decide, by decide, by decide, by decide⟩⟩

theorem okV2_example : OkV2 [([119], w1), ([98, 46], w2)] where
  names := by decide
  distinct := by decide
  whole := by
    intro p hp
    simp only [List.mem_cons, List.not_mem_nil, or_false] at hp
    rcases hp with rfl | rfl
    · exact ⟨whole_w1, by decide, by decide⟩
    · exact ⟨whole_w2, by decide, by decide⟩
  count := by decide
  size := by decide

example : ∃ f, writeV2 id [([119], w1), ([98, 46], w2)] = .ok f ∧
    readV2 false f = .ok (expectV2 [([119], w1), ([98, 46], w2)]) :=
  v2_roundtrip_partial false id _ okV2_example

/-- The hypothesis of `v2_readers_agree` is met by every well-formed file. -/
example : ∃ f ps, readV2 false f = .ok ps ∧ ps.length = 2 := by
  obtain ⟨f, _, h⟩ := v2_roundtrip_partial false id _ okV2_example
  exact ⟨f, _, h, rfl⟩

/-- Violation of C16 (views): the first element of a two-element tensor, obtained by slicing. The
writer stores the whole storage; the non-mapping reader then reads 8 bytes into a 4-byte buffer. -/
theorem v2_slice_overflow_violated :
    ∃ t : Tensor, t.off = 0 ∧ t.shape = [1] ∧ t.dtype = 0 ∧
      ∃ f, writeV2 id [([119], t)] = .ok f ∧ readV2 false f = .error .ub :=
  ⟨{ w1 with shape := [1], stride := [1] }, rfl, rfl, rfl, _, rfl, by decide +kernel⟩

/-- Violation of C16 (views): writing a slice that does not start at element 0 reads past the end
of the storage. -/
theorem v2_offset_slice_violated :
    ∃ t : Tensor, t.off = 1 ∧ t.shape = [1, 1] ∧ t.store.length = 8 ∧
      writeV2 id [([119], t)] = .error .ub :=
  ⟨{ w1 with shape := [1, 1], off := 1 }, rfl, rfl, rfl, rfl⟩

/-- Violation of C16 (views): a transposed tensor is written in storage order but with its transposed
shape, so reading it back gives a row-major tensor with the elements in the wrong places. -/
theorem v2_transposed_violated :
    ∃ t : Tensor, t.shape = [3, 2] ∧ t.stride = [1, 3] ∧
      ∃ f t', writeV2 id [([119], t)] = .ok f ∧ readV2 true f = .ok [([119], t')] ∧
        t'.shape = t.shape ∧ t'.store = t.store ∧ t'.stride ≠ t.stride :=
  ⟨⟨[], 134, [3, 2], [1, 3], 0, [0, 1, 2, 3, 4, 5]⟩, rfl, rfl, _,
    ⟨[119], 134, [3, 2], [2, 1], 0, [0, 1, 2, 3, 4, 5]⟩, rfl, by decide +kernel, rfl, rfl, by decide⟩

/-- Violation of C16 (names): two different names of 256 bytes that agree on the first 255 are
written as the same name, and the file cannot be read. -/
theorem v2_long_names_violated :
    ∃ n1 n2 : List UInt8, n1 ≠ n2 ∧ n1.length = 256 ∧ n2.length = 256 ∧
      ∃ f, writeV2 id [(n1, w2), (n2, w2)] = .ok f ∧ readV2 true f = .error .abort :=
  ⟨List.replicate 255 97 ++ [97], List.replicate 255 97 ++ [98], by decide +kernel, by decide +kernel,
    by decide +kernel, _, rfl, by decide +kernel⟩

/-! ## C17 -/

/-- V1 keeps names, dtypes and bytes; the shape becomes one-dimensional. -/
def expectV1 (ps : Params) : Params :=
  ps.map fun p => (p.1, ⟨p.1, p.2.dtype, [numel p.2.shape], [1], 0, p.2.store⟩)

structure OkV1 (ps : Params) : Prop where
  /-- the storage of every tensor carries the name under which it is registered -/
  sname : ∀ p ∈ ps, p.2.sname = p.1
  names : ∀ p ∈ ps, p.1.length < 2 ^ 31
  distinct : (ps.map (·.1)).Nodup
  whole : ∀ p ∈ ps, Whole p.2 ∧ numel p.2.shape < 2 ^ 31 ∧ p.2.dtype < 2 ^ 32
  size : 12 + descSizeV1 ps + totalData ps < 2 ^ 64

/-- The descriptors the V1 writer emits. -/
def descListV1 : Nat → Params → List DescV1
  | _, [] => []
  | off, (n, t) :: ps => ⟨n, t.store.length, off, t.dtype⟩ :: descListV1 (off + t.store.length) ps

theorem length_descsV1 (ps : Params) (h : ∀ p ∈ ps, p.2.sname = p.1) (off : Nat) :
    (descsV1 off ps).length = descSizeV1 ps := by
  induction ps generalizing off with
  | nil => rfl
  | cons p ps ih =>
    obtain ⟨n, t⟩ := p
    have : t.sname = n := h (n, t) (by simp)
    simp [descsV1, descSizeV1, ih (fun p hp => h p (by simp [hp])), this]
    omega

theorem descSizeV1_pos (n : List UInt8) (t : Tensor) (ps : Params) : 24 ≤ descSizeV1 ((n, t) :: ps) := by
  simp [descSizeV1]; omega

theorem take_has {f : List UInt8} {lim off : Nat} {bs : List UInt8} (h : Has f off bs)
    (hl : off + bs.length ≤ lim) : Has (f.take lim) off bs := by
  obtain ⟨a, c, rfl, rfl⟩ := h
  refine ⟨a, c.take (lim - a.length - bs.length), ?_, rfl⟩
  rw [List.take_append, List.take_append, List.take_of_length_le (by omega),
    List.take_of_length_le (by omega)]

theorem parseV1_ok (f : List UInt8) (lim : Nat) (ps : Params) :
    ∀ (pos off fuel : Nat), (∀ p ∈ ps, p.2.sname = p.1) → (∀ p ∈ ps, p.1.length < 2 ^ 31) →
      (∀ p ∈ ps, p.2.dtype < 2 ^ 32) →
      off + totalData ps < 2 ^ 64 → Has f pos (descsV1 off ps) → pos + descSizeV1 ps ≤ lim →
      descSizeV1 ps < fuel →
      parseV1 f lim (pos + descSizeV1 ps) fuel pos = .ok (descListV1 off ps) := by
  induction ps with
  | nil =>
    intro pos off fuel _ _ _ _ _ _ hfu
    cases fuel with
    | zero => omega
    | succ k => simp [parseV1, descSizeV1, descListV1]
  | cons p ps ih =>
    intro pos off fuel hs hn hd hsz hf hlim hfu
    obtain ⟨n, t⟩ := p
    have hsn : t.sname = n := hs (n, t) (by simp)
    have hnl : n.length < 2 ^ 31 := hn (n, t) (by simp)
    have hdt : t.dtype < 2 ^ 32 := hd (n, t) (by simp)
    have hpos := descSizeV1_pos n t ps
    cases fuel with
    | zero => omega
    | succ k =>
    simp only [totalData, List.map_cons, List.sum_cons] at hsz
    simp only [descsV1] at hf
    have hD : descSizeV1 ((n, t) :: ps) = 24 + n.length + descSizeV1 ps := by
      simp only [descSizeV1, hsn]; omega
    have g1 := hf.left
    have f1 := hf.right; rw [length_leBytes] at f1
    have g2 := f1.left
    have f2 := f1.right
    have g3 := f2.left
    have f3 := f2.right; rw [length_leBytes] at f3
    have g4 := f3.left
    have f4 := f3.right; rw [length_leBytes] at f4
    have g5 := f4.left
    have f5 := f4.right; rw [length_leBytes] at f5
    unfold parseV1
    rw [if_neg (by omega)]
    rw [(take_has g1 (lim := lim) (by simp; omega)).rd' (by simp), bind_ok]
    simp only []
    rw [leVal_leBytes (by omega)]
    rw [(take_has g2 (lim := lim) (by omega)).rd, bind_ok]
    rw [(take_has g3 (lim := lim) (by simp; omega)).rd' (by simp), bind_ok]
    rw [show pos + 12 + n.length = pos + 4 + n.length + 8 by omega,
      (take_has g4 (lim := lim) (by simp; omega)).rd' (by simp), bind_ok]
    rw [show pos + 20 + n.length = pos + 4 + n.length + 8 + 8 by omega,
      (take_has g5 (lim := lim) (by simp; omega)).rd' (by simp), bind_ok]
    rw [leVal_leBytes (by omega), leVal_leBytes (by omega), leVal_leBytes (by omega)]
    have := ih (pos + 24 + n.length) (off + t.store.length) k (fun p hp => hs p (by simp [hp]))
      (fun p hp => hn p (by simp [hp])) (fun p hp => hd p (by simp [hp]))
      (by simp only [totalData]; omega)
      (by rw [show pos + 24 + n.length = pos + 4 + n.length + 8 + 8 + 4 by omega]; exact f5)
      (by omega) (by omega)
    rw [show pos + descSizeV1 ((n, t) :: ps) = pos + 24 + n.length + descSizeV1 ps by omega, this,
      bind_ok]
    rfl

theorem dtInfo_pos (d : Nat) : 0 < (dtInfo d).1 ∧ 0 < (dtInfo d).2 := by
  unfold dtInfo; split <;> decide

theorem dtInfo_lanes_le (d : Nat) : (dtInfo d).1 ≤ 256 ∧ (dtInfo d).2 ≤ 292 := by
  unfold dtInfo; split <;> decide

theorem loopV1_ok (m : Bool) (f : List UInt8) (ps : Params) :
    ∀ (off : Nat) (acc : Params), (∀ p ∈ ps, p.1.length < 2 ^ 31) →
      (∀ p ∈ ps, Whole p.2 ∧ numel p.2.shape < 2 ^ 31) →
      Has f off (ps.flatMap fun p => p.2.store) →
      ((acc ++ expectV1 ps).map (·.1)).Nodup →
      loopV1 m f (descListV1 off ps) acc = .ok (acc ++ expectV1 ps) := by
  induction ps with
  | nil => intro off acc _ _ _ _; simp [descListV1, loopV1, expectV1]
  | cons p ps ih =>
    intro off acc hn hw hf hnd
    obtain ⟨n, t⟩ := p
    obtain ⟨hw1, hnum⟩ := hw (n, t) (by simp)
    have hnl : n.length < 2 ^ 31 := hn (n, t) (by simp)
    simp only at hnum hw1
    rw [List.flatMap_cons] at hf
    have hp := dtInfo_pos t.dtype
    have hle := dtInfo_lanes_le t.dtype
    have hlen := hw1.fits.len
    obtain ⟨q, hq⟩ := hw1.fits.lanes
    have hqd : numel t.shape / (dtInfo t.dtype).1 = q := by
      rw [hq, Nat.mul_div_cancel_left _ hp.1]
    have hshape : t.store.length / (dtInfo t.dtype).2 * (dtInfo t.dtype).1 = numel t.shape := by
      rw [hlen, Nat.mul_div_cancel _ hp.2, hqd, hq, Nat.mul_comm]
    have hfit : Fits t.dtype [numel t.shape] t.store.length := by
      refine ⟨by simp, ?_, ?_, ?_, ?_⟩
      · simpa using hnum
      · simpa [numel] using hw1.fits.small
      · simpa [numel] using hw1.fits.lanes
      · simpa [numel] using hlen
    have hent : entryV1 m f ⟨n, t.store.length, off, t.dtype⟩ =
        .ok (n, ⟨n, t.dtype, [numel t.shape], [1], 0, t.store⟩) := by
      unfold entryV1
      rw [if_neg (by simp only; omega)]
      simp only [hshape, createSize_ok hfit, bind_ok]
      cases m
      · simp [hf.left.rd, bind_ok, pure, Except.pure, rowStrides, numel]
      · simp [hf.left.rd, bind_ok, pure, Except.pure, rowStrides, numel]
    simp only [descListV1, loopV1, hent, bind_ok]
    rw [push_ok, bind_ok, ih _ _ (fun p hp => hn p (by simp [hp])) (fun p hp => hw p (by simp [hp]))
      hf.right]
    · simp [expectV1]
    · simpa [expectV1] using hnd
    · intro hmem
      simp only [expectV1, List.map_append, List.map_cons] at hnd
      rw [List.nodup_append] at hnd
      exact hnd.2.2 _ hmem _ (by simp) rfl

/-- C17: writing any parameter set of whole tensors whose storages carry the registered names with
V1 and reading it back, memory-mapped or not, yields the same names, dtypes and bytes (and the same
element count). What is missing: tensors whose storage name differs from the registered name. -/
theorem v1_roundtrip_partial (m : Bool) (ps : Params) (h : OkV1 ps) :
    ∃ f, writeV1 ps = .ok f ∧ readV1 m f = .ok (expectV1 ps) := by
  refine ⟨_, by unfold writeV1; rw [dataOut_ok ps (fun p hp => (h.whole p hp).1)]; rfl, ?_⟩
  generalize hf : leBytes 4 20012 ++ (leBytes 8 (descSizeV1 ps) ++
    (descsV1 (12 + descSizeV1 ps) ps ++ ps.flatMap fun p => p.2.store)) = f
  have h0 : Has f 0 (leBytes 4 20012 ++ (leBytes 8 (descSizeV1 ps) ++
    (descsV1 (12 + descSizeV1 ps) ps ++ ps.flatMap fun p => p.2.store))) :=
    ⟨[], [], by simp [hf], rfl⟩
  have h1 := h0.right; rw [length_leBytes] at h1
  have h2 := h1.right; rw [length_leBytes] at h2
  have h3 := h2.right; rw [length_descsV1 _ h.sname] at h3
  have hflen := h2.length
  rw [List.length_append, length_descsV1 _ h.sname] at hflen
  have hsize := h.size
  unfold readV1
  rw [h0.left.rd' (by simp), bind_ok]
  rw [(show Has f 4 (leBytes 8 (descSizeV1 ps)) by simpa using h1.left).rd' (by simp), bind_ok]
  rw [leVal_leBytes (by norm_num), leVal_leBytes (by omega)]
  simp only [ne_eq, not_true_eq_false, if_false]
  rw [parseV1_ok f _ ps 12 (12 + descSizeV1 ps) f.length h.sname h.names
    (fun p hp => (h.whole p hp).2.2) hsize
    (by simpa using h2.left) (by split <;> omega) (by omega), bind_ok]
  have := loopV1_ok m f ps (12 + descSizeV1 ps) [] h.names
    (fun p hp => ⟨(h.whole p hp).1, (h.whole p hp).2.1⟩) (by simpa using h3)
    (by simpa [expectV1, List.map_map, Function.comp_def] using h.distinct)
  simpa using this

example : OkV1 [([119], { w1 with sname := [119] }), ([98, 46], { w2 with sname := [98, 46] })] where
  sname := by decide
  names := by decide
  distinct := by decide
  whole := by
    intro p hp
    simp only [List.mem_cons, List.not_mem_nil, or_false] at hp
    rcases hp with rfl | rfl
    · exact ⟨⟨rfl, rfl, ⟨by decide, by decide, by decide, by decide, by decide⟩⟩, by decide, by decide⟩
    · exact ⟨⟨rfl, rfl, ⟨by decide, by decide, by decide, by decide, by decide⟩⟩, by decide, by decide⟩
  size := by decide

/-- Violation of C17: a tensor registered under the name `w` whose storage was never named. The file
is written without complaint, and the memory-mapping reader returns different bytes. -/
theorem v1_unnamed_storage_violated :
    ∃ t : Tensor, Whole t ∧ t.sname = [] ∧
      ∃ f t', writeV1 [([119], t)] = .ok f ∧ readV1 true f = .ok [([119], t')] ∧
        t'.store.length = t.store.length ∧ t'.store ≠ t.store :=
  ⟨w2, whole_w2, rfl, _, ⟨[119], 134, [3], [1], 0, [0, 9, 10]⟩, rfl, by decide +kernel,
    by decide, by decide⟩

/-! ## C39: files written by the Python converter -/

/-- The parameters a converter input denotes. -/
def expectPy (ts : List PyTensor) : Params :=
  ts.map fun t => (t.name, ⟨t.name, t.dtype, t.shape, rowStrides t.shape, 0, t.data⟩)

def totalPy (ts : List PyTensor) : Nat := (ts.map fun t => t.data.length).sum

/-- Converter input: names of at most 256 bytes without NUL, at least one and at most 16 dimensions
and data of the length the C++ runtime computes for shape and dtype. -/
structure OkPy (ts : List PyTensor) : Prop where
  names : ∀ t ∈ ts, t.name.length ≤ 256 ∧ (0 : UInt8) ∉ t.name
  distinct : (ts.map (·.name)).Nodup
  fits : ∀ t ∈ ts, Fits t.dtype t.shape t.data.length ∧ t.shape.length ≤ 16 ∧ t.dtype < 2 ^ 32

def descListPy : Nat → Nat → List PyTensor → List Desc
  | _, _, [] => []
  | i, off, t :: ts => pyDesc t off i :: descListPy (i + 1) (off + t.data.length) ts

theorem length_descListPy (i off : Nat) (ts : List PyTensor) :
    (descListPy i off ts).length = ts.length := by
  induction ts generalizing i off with
  | nil => rfl
  | cons p ps ih => simp [descListPy, ih]

theorem length_encPy (t : PyTensor) (off i : Nat) (h : t.shape.length ≤ 16) :
    (encDesc (pyDesc t off i)).length = 352 := by
  simp [encDesc, pyDesc, length_shapeField _ h, length_pyNameField]

theorem length_flatPy (i off : Nat) (ts : List PyTensor) (h : ∀ t ∈ ts, t.shape.length ≤ 16) :
    ((descListPy i off ts).flatMap encDesc).length = ts.length * 352 := by
  induction ts generalizing i off with
  | nil => rfl
  | cons t ts ih =>
    simp only [descListPy, List.flatMap_cons, List.length_append, List.length_cons]
    rw [ih _ _ (fun t ht => h t (by simp [ht])), length_encPy _ _ _ (h t (by simp))]
    omega

theorem descListPy_entries (m : Bool) (f : List UInt8) (ts : List PyTensor) :
    ∀ (i off : Nat), (∀ t ∈ ts, t.name.length ≤ 256 ∧ (0 : UInt8) ∉ t.name) →
      (∀ t ∈ ts, Fits t.dtype t.shape t.data.length ∧ t.shape.length ≤ 16 ∧ t.dtype < 2 ^ 32) →
      off + totalPy ts < 2 ^ 64 → Has f off (ts.flatMap (·.data)) →
      List.Forall₂ (fun d e => DescWF d ∧ entryV2 m f d = .ok e) (descListPy i off ts)
        (expectPy ts) := by
  induction ts with
  | nil => intro i off _ _ _ _; exact .nil
  | cons t ts ih =>
    intro i off hn hw hsz hf
    obtain ⟨hfit, hs, hdt⟩ := hw t (by simp)
    obtain ⟨hnl, hnz⟩ := hn t (by simp)
    rw [List.flatMap_cons] at hf
    simp only [totalPy, List.map_cons, List.sum_cons] at hsz
    simp only [descListPy, expectPy, List.map_cons]
    refine .cons ⟨⟨hdt, ?_, ?_, ?_, ?_, ?_, ?_⟩, ?_⟩
      (ih _ _ (fun p hp => hn p (by simp [hp])) (fun p hp => hw p (by simp [hp])) ?_ hf.right)
    · simp only [pyDesc]; omega
    · simp only [pyDesc]; omega
    · simp only [pyDesc]; omega
    · exact length_shapeField _ hs
    · exact shapeField_lt _ hfit.dims
    · exact length_pyNameField _
    · exact entryV2_ok m f (pyDesc t off i) t.name t.shape t.data hs rfl rfl
        (cstr_pyNameField hnz hnl) rfl hfit hf.left
    · simp only [totalPy]; omega

/-- A file laid out as header, descriptors, (unused descriptor space), data is read back. -/
theorem read_py_layout (m : Bool) (ts : List PyTensor) (h : OkPy ts) (gap : Nat)
    (hn : ts.length < 2 ^ 32) (hsz : 532 + ts.length * 352 + gap + totalPy ts < 2 ^ 64) :
    readV2 m (encHeader ts.length 532 ++
      ((descListPy 0 (532 + ts.length * 352 + gap) ts).flatMap encDesc ++
        (List.replicate gap 0 ++ ts.flatMap (·.data)))) = .ok (expectPy ts) := by
  generalize hf : encHeader ts.length 532 ++ _ = f
  have hl16 : ∀ t ∈ ts, t.shape.length ≤ 16 := fun t ht => (h.fits t ht).2.1
  have h0 : Has f 0 (encHeader ts.length 532) := ⟨[], _, by rw [← hf]; rfl, rfl⟩
  have h2 : Has f 532 ((descListPy 0 (532 + ts.length * 352 + gap) ts).flatMap encDesc) :=
    ⟨_, _, hf.symm, by simp⟩
  have h3 : Has f (532 + ts.length * 352 + gap) (ts.flatMap (·.data)) := by
    refine ⟨encHeader ts.length 532 ++
      ((descListPy 0 (532 + ts.length * 352 + gap) ts).flatMap encDesc ++ List.replicate gap 0),
      [], by simp [← hf], ?_⟩
    rw [List.length_append, List.length_append, length_flatPy _ _ _ hl16]; simp; omega
  exact readV2_ok m f (descListPy 0 (532 + ts.length * 352 + gap) ts) (expectPy ts)
    (by rw [length_descListPy]; exact hn) (by rw [length_descListPy]; exact h0)
    (descListPy_entries m f ts 0 _ h.names h.fits hsz h3) h2
    (by simpa [expectPy, List.map_map, Function.comp_def] using h.distinct)

theorem descListPy_snoc (ts : List PyTensor) (t : PyTensor) (i off : Nat) :
    descListPy i off (ts ++ [t]) =
      descListPy i off ts ++ [pyDesc t (off + totalPy ts) (i + ts.length)] := by
  induction ts generalizing i off with
  | nil => simp [descListPy, totalPy]
  | cons a ts ih =>
    simp only [List.cons_append, descListPy, ih]
    have : off + a.data.length + totalPy ts = off + totalPy (a :: ts) := by simp [totalPy]; omega
    rw [this]
    simp [Nat.add_comm, Nat.add_left_comm]

/-- State of a streaming writer after the tensors `ts`: the 532 header bytes are still zero. -/
def StreamInv (max : Nat) (ts : List PyTensor) (w : PyWriter) : Prop :=
  w.max = max ∧ w.descs = ts.length ∧ w.descOff = 532 ∧ w.file.pos = w.file.buf.length ∧
  (ts ≠ [] → w.num = ts.length) ∧ ts.length ≤ max ∧
  w.file.buf = List.replicate 532 0 ++
    ((descListPy 0 (532 + max * 352) ts).flatMap encDesc ++
      (List.replicate ((max - ts.length) * 352) 0 ++ ts.flatMap (·.data)))

theorem StreamInv.pos {max ts w} (h : StreamInv max ts w) (h16 : ∀ t ∈ ts, t.shape.length ≤ 16) :
    w.file.pos = 532 + max * 352 + totalPy ts := by
  obtain ⟨-, -, -, hp, -, hle, hb⟩ := h
  rw [hp, hb]
  have : (ts.flatMap (·.data)).length = totalPy ts := by
    rw [List.length_flatMap]; rfl
  simp only [List.length_append, List.length_replicate, length_flatPy _ _ _ h16, this]
  have : ts.length * 352 + (max - ts.length) * 352 = max * 352 := by
    rw [← Nat.add_mul, Nat.add_sub_cancel' hle]
  omega

theorem stream_step {max : Nat} {ts : List PyTensor} {w : PyWriter} (t : PyTensor)
    (h : StreamInv max ts w) (h16 : ∀ t ∈ ts, t.shape.length ≤ 16) (hlt : ts.length < max)
    (hok : pyDescOk t w.file.pos w.descs) :
    ∃ w', pyStreamWrite w t = .ok w' ∧ StreamInv max (ts ++ [t]) w' := by
  have hpos := h.pos h16
  obtain ⟨hm, hd, ho, hp, hnum, hle, hb⟩ := h
  refine ⟨_, by unfold pyStreamWrite; rw [if_neg (by omega), if_neg (by simpa using hok)], ?_⟩
  have ht16 : t.shape.length ≤ 16 := hok.1
  obtain ⟨⟨buf, pos⟩, mx, ds, nm, dof⟩ := w
  simp only at hm hd ho hp hb hpos
  subst hm hd ho
  have hw1 : PyFile.write ⟨buf, pos⟩ t.data = ⟨buf ++ t.data, pos + t.data.length⟩ :=
    write_tail _ _ _ hp.symm
  simp only [hw1, PyFile.seek]
  have hsplit : List.replicate ((mx - ts.length) * 352) (0 : UInt8) =
      List.replicate 352 0 ++ List.replicate ((mx - (ts.length + 1)) * 352) 0 := by
    rw [← List.replicate_add]; congr 1; omega
  have hbuf : buf ++ t.data = (List.replicate 532 0 ++
      (descListPy 0 (532 + mx * 352) ts).flatMap encDesc) ++ (List.replicate 352 0 ++
        (List.replicate ((mx - (ts.length + 1)) * 352) 0 ++ (ts.flatMap (·.data) ++ t.data))) := by
    rw [hb, hsplit]; simp only [List.append_assoc]
  rw [hbuf, write_mid _ _ _ _ _ (by simp [-List.reduceReplicate, length_flatPy _ _ _ h16])
    (by rw [length_encPy _ _ _ ht16]; simp [-List.reduceReplicate])]
  refine ⟨rfl, by simp, rfl, rfl, by simp, by simp; omega, ?_⟩
  simp only
  rw [descListPy_snoc, hpos]
  simp [-List.reduceReplicate]

theorem stream_all (max : Nat) (ts' : List PyTensor) :
    ∀ (ts : List PyTensor) (w : PyWriter), StreamInv max ts w →
      (∀ t ∈ ts ++ ts', t.shape.length ≤ 16 ∧ (∀ d ∈ t.shape, d < 2 ^ 31) ∧ t.dtype < 2 ^ 32) →
      (ts ++ ts').length ≤ max → max < 2 ^ 32 →
      532 + max * 352 + totalPy (ts ++ ts') < 2 ^ 64 →
      ∃ w', pyStreamAll w ts' = .ok w' ∧ StreamInv max (ts ++ ts') w' := by
  induction ts' with
  | nil => intro ts w h _ _ _ _; exact ⟨w, rfl, by simpa using h⟩
  | cons t ts' ih =>
    intro ts w h hall hlen hmax hsz
    have h16 : ∀ t ∈ ts, t.shape.length ≤ 16 := fun t ht => (hall t (by simp [ht])).1
    have htot : totalPy (ts ++ t :: ts') = totalPy ts + (t.data.length + totalPy ts') := by
      simp [totalPy]
    simp only [List.length_append, List.length_cons] at hlen
    obtain ⟨w1, hw1, hi1⟩ := stream_step t h h16 (by omega) ⟨(hall t (by simp)).1,
      (hall t (by simp)).2.1, (hall t (by simp)).2.2, by omega, by rw [h.pos h16]; omega,
      by rw [h.2.1]; omega⟩
    obtain ⟨w2, hw2, hi2⟩ := ih (ts ++ [t]) w1 hi1 (by simpa using hall)
      (by simp; omega) hmax (by simpa using hsz)
    exact ⟨w2, by simp only [pyStreamAll, hw1, bind_ok, hw2], by simpa using hi2⟩

theorem stream_open (max : Nat) : StreamInv max [] (pyStreamOpen max) := by
  refine ⟨rfl, rfl, rfl, ?_, by simp, by simp, ?_⟩
  · simp only [pyStreamOpen, List.length_replicate]
  · simp only [pyStreamOpen, descListPy, List.flatMap_nil, List.nil_append, List.length_nil,
      Nat.sub_zero, List.append_nil, ← List.replicate_add]

/-- C39 (streaming): opening, writing at most `max` tensors one by one and finalizing gives a file
that both C++ readers load with the same names, dtypes, shapes and bytes.
What is missing: more than `max` tensors, writing after finalize, dtypes for which the runtime's
element size differs from the converter's (see the violations). -/
theorem py_streaming_roundtrip_partial (m : Bool) (max : Nat) (ts : List PyTensor) (h : OkPy ts)
    (hne : ts ≠ []) (hlen : ts.length ≤ max) (hmax : max < 2 ^ 32)
    (hsz : 532 + max * 352 + totalPy ts < 2 ^ 64) :
    ∃ w, pyStreamAll (pyStreamOpen max) ts = .ok w ∧
      readV2 m (pyFinalize w).file.buf = .ok (expectPy ts) := by
  obtain ⟨w, hw, hi⟩ := stream_all max ts [] _ (stream_open max)
    (fun t ht => by
      have := h.fits t (by simpa using ht)
      exact ⟨this.2.1, this.1.dims, this.2.2⟩) (by simpa using hlen) hmax (by simpa using hsz)
  refine ⟨w, hw, ?_⟩
  simp only [List.nil_append] at hi
  obtain ⟨hm, hd, ho, hp, hnum, hle, hb⟩ := hi
  have : (pyFinalize w).file.buf = encHeader ts.length 532 ++
      ((descListPy 0 (532 + ts.length * 352 + (max - ts.length) * 352) ts).flatMap encDesc ++
        (List.replicate ((max - ts.length) * 352) 0 ++ ts.flatMap (·.data))) := by
    unfold pyFinalize
    simp only [PyFile.seek, hnum hne, ho, hb]
    rw [show 532 + ts.length * 352 + (max - ts.length) * 352 = 532 + max * 352 by
      rw [Nat.add_assoc, ← Nat.add_mul, Nat.add_sub_cancel' hle]]
    have := write_mid [] (List.replicate 532 0)
      ((descListPy 0 (532 + max * 352) ts).flatMap encDesc ++
      (List.replicate ((max - ts.length) * 352) 0 ++ ts.flatMap (·.data)))
      (encHeader ts.length 532) 0 rfl (by rw [length_encHeader, List.length_replicate])
    rw [List.nil_append] at this
    rw [this]
    rfl
  rw [this]
  exact read_py_layout m ts h _ (by omega) (by
    rw [Nat.add_assoc 532, ← Nat.add_mul, Nat.add_sub_cancel' hle]; exact hsz)

/-- Crash safety of C39: as long as `finalize` has not been called, whatever number of tensors (up
to `max`) has been streamed, both readers refuse the file. -/
theorem py_unfinalized_refused (m : Bool) (max : Nat) (ts : List PyTensor)
    (hall : ∀ t ∈ ts, t.shape.length ≤ 16 ∧ (∀ d ∈ t.shape, d < 2 ^ 31) ∧ t.dtype < 2 ^ 32)
    (hlen : ts.length ≤ max) (hmax : max < 2 ^ 32) (hsz : 532 + max * 352 + totalPy ts < 2 ^ 64) :
    ∃ w, pyStreamAll (pyStreamOpen max) ts = .ok w ∧ readV2 m w.file.buf = .error .abort := by
  obtain ⟨w, hw, hi⟩ := stream_all max ts [] _ (stream_open max) (by simpa using hall)
    (by simpa using hlen) hmax (by simpa using hsz)
  refine ⟨w, hw, ?_⟩
  simp only [List.nil_append] at hi
  obtain ⟨hm, hd, ho, hp, hnum, hle, hb⟩ := hi
  unfold readV2
  have hz : Has w.file.buf 0 (List.replicate 532 0) := ⟨[], _, by rw [hb]; rfl, rfl⟩
  rw [hz.rd' (by rw [List.length_replicate]), bind_ok]
  rfl

theorem static_data (ts : List PyTensor) : ∀ (b : List UInt8) (i : Nat),
    (∀ t ∈ ts, t.shape.length ≤ 16 ∧ (∀ d ∈ t.shape, d < 2 ^ 31) ∧ t.dtype < 2 ^ 32) →
    i + ts.length < 2 ^ 32 → b.length + totalPy ts < 2 ^ 64 →
    pyStaticData ⟨b, b.length⟩ i ts =
      .ok (⟨b ++ ts.flatMap (·.data), b.length + totalPy ts⟩, descListPy i b.length ts) := by
  induction ts with
  | nil => intro b i _ _ _; simp [pyStaticData, descListPy, totalPy]
  | cons t ts ih =>
    intro b i hall hi hsz
    have ht := hall t (by simp)
    have htot : totalPy (t :: ts) = t.data.length + totalPy ts := by simp [totalPy]
    simp only [List.length_cons] at hi
    unfold pyStaticData
    rw [if_neg (by
      rw [Classical.not_not]
      exact ⟨ht.1, ht.2.1, ht.2.2, by omega, by simp only; omega, by omega⟩)]
    rw [write_tail _ _ _ rfl]
    have := ih (b ++ t.data) (i + 1) (fun t ht => hall t (by simp [ht])) (by omega)
      (by simp; omega)
    rw [List.length_append] at this
    rw [this, bind_ok]
    simp [descListPy, pure, Except.pure, htot, Nat.add_assoc]

theorem static_descs (ts : List PyTensor) : ∀ (pre post : List UInt8) (i off p : Nat),
    pre.length = 532 + i * 352 → (∀ t ∈ ts, t.shape.length ≤ 16) →
    (pyStaticDescs ⟨pre ++ (List.replicate (ts.length * 352) 0 ++ post), p⟩ (descListPy i off ts)).buf
      = pre ++ ((descListPy i off ts).flatMap encDesc ++ post) := by
  induction ts with
  | nil => intro pre post i off p _ _; simp [pyStaticDescs, descListPy]
  | cons t ts ih =>
    intro pre post i off p hpre h16
    simp only [descListPy, pyStaticDescs, PyFile.seek]
    have hsplit : List.replicate ((t :: ts).length * 352) (0 : UInt8) =
        List.replicate 352 0 ++ List.replicate (ts.length * 352) 0 := by
      rw [← List.replicate_add]; congr 1; simp; omega
    rw [hsplit, List.append_assoc, write_mid pre _ _ _ _ (by simpa [pyDesc] using hpre)
      (by rw [length_encPy _ _ _ (h16 t (by simp)), List.length_replicate])]
    have := ih (pre ++ encDesc (pyDesc t off i)) post (i + 1) (off + t.data.length)
      (532 + (pyDesc t off i).id * 352 + (encDesc (pyDesc t off i)).length)
      (by simp [length_encPy _ _ _ (h16 t (by simp)), hpre]; omega)
      (fun t ht => h16 t (by simp [ht]))
    rw [← List.append_assoc]
    rw [this]
    simp

/-- C39 (static): `static_write` of a dictionary followed by `finalize` gives a file that both C++
readers load with the same names, dtypes, shapes and bytes. -/
theorem py_static_roundtrip_partial (m : Bool) (ts : List PyTensor) (h : OkPy ts)
    (hn : ts.length < 2 ^ 32) (hsz : 532 + ts.length * 352 + totalPy ts < 2 ^ 64) :
    ∃ w, pyStaticWrite pyStaticOpen ts = .ok w ∧
      readV2 m (pyFinalize w).file.buf = .ok (expectPy ts) := by
  have hf0 : pyStaticOpen.file.write (List.replicate (532 + ts.length * 352) 0) =
      ⟨List.replicate (532 + ts.length * 352) 0,
        (List.replicate (532 + ts.length * 352) (0 : UInt8)).length⟩ := by
    have := write_tail [] (List.replicate (532 + ts.length * 352) (0 : UInt8)) 0 rfl
    simpa [pyStaticOpen, -List.reduceReplicate] using this
  have hd := static_data ts (List.replicate (532 + ts.length * 352) 0) 0
    (fun t ht => by
      have := h.fits t ht
      exact ⟨this.2.1, this.1.dims, this.2.2⟩) (by omega) (by rw [List.length_replicate]; exact hsz)
  refine ⟨_, by unfold pyStaticWrite; simp only [hf0, hd, bind_ok]; rfl, ?_⟩
  unfold pyFinalize
  simp only [PyFile.seek]
  have h16 : ∀ t ∈ ts, t.shape.length ≤ 16 := fun t ht => (h.fits t ht).2.1
  have hs := static_descs ts (List.replicate 532 0) (ts.flatMap (·.data)) 0
    (532 + ts.length * 352) (532 + ts.length * 352 + totalPy ts)
    (by rw [List.length_replicate]) h16
  rw [← List.append_assoc, ← List.replicate_add] at hs
  rw [List.length_replicate, hs]
  have hw := write_mid [] (List.replicate 532 0)
    ((descListPy 0 (532 + ts.length * 352) ts).flatMap encDesc ++ ts.flatMap (·.data))
    (encHeader ts.length 532) 0 rfl (by rw [length_encHeader, List.length_replicate])
  rw [List.nil_append] at hw
  rw [hw]
  have := read_py_layout m ts h 0 hn (by omega)
  simpa using this

def p1 : PyTensor := ⟨[119], 0, [2], [1, 2, 3, 4, 5, 6, 7, 8]⟩
def p2 : PyTensor := ⟨[98], 129, [3], [9, 10, 11]⟩

theorem okPy_example : OkPy [p1, p2] where
  names := by decide
  distinct := by decide
  fits := by
    intro p hp
    simp only [List.mem_cons, List.not_mem_nil, or_false] at hp
    rcases hp with rfl | rfl
    · exact ⟨⟨by decide, by decide, by decide, by decide, by decide⟩, by decide, by decide⟩
    · exact ⟨⟨by decide, by decide, by decide, by decide, by decide⟩, by decide, by decide⟩

example : ∃ w, pyStreamAll (pyStreamOpen 1024) [p1, p2] = .ok w ∧
      readV2 true (pyFinalize w).file.buf = .ok (expectPy [p1, p2]) :=
  py_streaming_roundtrip_partial true 1024 _ okPy_example (by decide) (by decide) (by decide)
    (by decide)

example : ∃ w, pyStaticWrite pyStaticOpen [p1, p2] = .ok w ∧
      readV2 false (pyFinalize w).file.buf = .ok (expectPy [p1, p2]) :=
  py_static_roundtrip_partial false _ okPy_example (by decide) (by decide)

example : ∃ w, pyStreamAll (pyStreamOpen 3) [p1, p2] = .ok w ∧
    readV2 true w.file.buf = .error .abort :=
  py_unfinalized_refused true 3 [p1, p2] (by decide) (by decide) (by decide) (by decide)

/-- Kernel-evaluable form of "the call succeeds and its result satisfies `p`". -/
def holds {α : Type} (x : Res α) (p : α → Bool) : Bool :=
  match x with | .ok a => p a | .error _ => false

theorem exists_ok {α : Type} {x : Res α} (p : α → Bool) (h : holds x p = true) : ∃ a, x = .ok a ∧ p a = true := by
  cases x with
  | ok a => exact ⟨a, rfl, h⟩
  | error e => cases h

/-- Violation of C39: the capacity assertion is off by one. With room for one descriptor the second
tensor is accepted and its descriptor overwrites tensor data; the file no longer loads. -/
theorem py_streaming_capacity_violated :
    ∃ w, pyStreamAll (pyStreamOpen 1) [p1, p2] = .ok w ∧
      readV2 true (pyFinalize w).file.buf ≠ .ok (expectPy [p1, p2]) := by
  obtain ⟨w, h1, h2⟩ := exists_ok (x := pyStreamAll (pyStreamOpen 1) [p1, p2])
    (fun w => decide (readV2 true (pyFinalize w).file.buf ≠ .ok (expectPy [p1, p2])))
    (by decide +kernel)
  exact ⟨w, h1, of_decide_eq_true h2⟩

/-- Violation of C39: writing one more tensor after `finalize` (and finalizing again) writes it over
the descriptors. -/
theorem py_write_after_finalize_violated :
    let t : PyTensor := ⟨[99], 0, [2], [9, 10, 11, 12, 13, 14, 15, 16]⟩
    ∃ w w', pyStreamAll (pyStreamOpen 8) [p1] = .ok w ∧ pyStreamWrite (pyFinalize w) t = .ok w' ∧
      readV2 true (pyFinalize w').file.buf ≠ .ok (expectPy [p1, t]) := by
  intro t
  have hP : ∀ w', (fun w' => decide (readV2 true (pyFinalize w').file.buf ≠ .ok (expectPy [p1, t])))
    w' = true → readV2 true (pyFinalize w').file.buf ≠ .ok (expectPy [p1, t]) :=
    fun w' h => of_decide_eq_true h
  generalize hp : (fun w' => decide (readV2 true (pyFinalize w').file.buf ≠ .ok (expectPy [p1, t]))) = P at hP
  obtain ⟨w, h1, h2⟩ := exists_ok (x := pyStreamAll (pyStreamOpen 8) [p1])
    (fun w => holds (pyStreamWrite (pyFinalize w) t) P) (by subst hp; decide +kernel)
  obtain ⟨w', h3, h4⟩ := exists_ok (x := pyStreamWrite (pyFinalize w) t) P h2
  exact ⟨w, w', h1, h3, hP _ h4⟩

/-- Violation of C39: bfloat16 tensors (dtype id 128, two bytes per element) are loaded with one
byte per element, because the runtime has no entry for the type; the non-mapping reader overflows
its buffer. -/
theorem py_bfloat16_violated :
    let t : PyTensor := ⟨[119], 128, [2], [1, 2, 3, 4]⟩
    ∃ w, pyStaticWrite pyStaticOpen [t] = .ok w ∧
      readV2 false (pyFinalize w).file.buf = .error .ub ∧
      readV2 true (pyFinalize w).file.buf = .ok [([119], ⟨[119], 128, [2], [1], 0, [1, 2]⟩)] := by
  intro t
  obtain ⟨w, h1, h2⟩ := exists_ok (x := pyStaticWrite pyStaticOpen [t])
    (fun w => decide (readV2 false (pyFinalize w).file.buf = .error .ub ∧
      readV2 true (pyFinalize w).file.buf = .ok [([119], ⟨[119], 128, [2], [1], 0, [1, 2]⟩)]))
    (by decide +kernel)
  exact ⟨w, h1, of_decide_eq_true h2⟩

end Verif.ParamFile
