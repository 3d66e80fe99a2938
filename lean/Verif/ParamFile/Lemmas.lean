import Verif.ParamFile.Model
namespace Verif.ParamFile

@[simp] theorem length_leBytes (k n : Nat) : (leBytes k n).length = k := by
  induction k generalizing n with
  | zero => rfl
  | succ k ih => simp [leBytes, ih]

theorem leVal_leBytes_mod (k n : Nat) : leVal (leBytes k n) = n % 256 ^ k := by
  induction k generalizing n with
  | zero => simp [leBytes, leVal, Nat.mod_one]
  | succ k ih =>
    simp only [leBytes, leVal, ih, UInt8.toNat_ofNat', show 2 ^ 8 = 256 from rfl]
    rw [show (256 : Nat) ^ (k + 1) = 256 * 256 ^ k from Nat.pow_succ', Nat.mod_mul]

theorem leVal_leBytes {k n : Nat} (h : n < 256 ^ k) : leVal (leBytes k n) = n := by
  rw [leVal_leBytes_mod, Nat.mod_eq_of_lt h]

/-- `bs` occurs in `f` at offset `off`. -/
def Has (f : List UInt8) (off : Nat) (bs : List UInt8) : Prop :=
  ∃ a c, f = a ++ (bs ++ c) ∧ a.length = off

theorem Has.rd {f off bs} (h : Has f off bs) : ParamFile.rd f off bs.length = .ok bs := by
  obtain ⟨a, c, rfl, rfl⟩ := h
  simp [ParamFile.rd]

theorem Has.rd' {f off bs n} (h : Has f off bs) (hn : bs.length = n) :
    ParamFile.rd f off n = .ok bs := hn ▸ h.rd

theorem Has.length {f off bs} (h : Has f off bs) : off + bs.length ≤ f.length := by
  obtain ⟨a, c, rfl, rfl⟩ := h; simp

theorem Has.left {f off a b} (h : Has f off (a ++ b)) : Has f off a := by
  obtain ⟨x, c, rfl, rfl⟩ := h
  exact ⟨x, b ++ c, by simp, rfl⟩

theorem Has.right {f off a b} (h : Has f off (a ++ b)) : Has f (off + a.length) b := by
  obtain ⟨x, c, rfl, rfl⟩ := h
  exact ⟨x ++ a, c, by simp, by simp⟩

@[simp] theorem length_encInts (l : List Nat) : (encInts l).length = 4 * l.length := by
  induction l with
  | nil => rfl
  | cons a l ih => simp [encInts, ih]; omega

theorem decInts_encInts (l : List Nat) (h : ∀ d ∈ l, d < 2 ^ 32) :
    decInts l.length (encInts l) = l := by
  induction l with
  | nil => rfl
  | cons a l ih =>
    simp only [List.length_cons, encInts, decInts]
    rw [List.take_left' (by simp), List.drop_left' (by simp), ih (fun d hd => h d (by simp [hd])),
      leVal_leBytes]
    have := h a (by simp)
    omega

/-- Field values fit their fields (the id is never read back). -/
structure DescWF (d : Desc) : Prop where
  ty : d.ty < 2 ^ 32
  size : d.size < 2 ^ 64
  off : d.off < 2 ^ 64
  shapeLen : d.shapeLen < 2 ^ 64
  shape16 : d.shape.length = 16
  dims : ∀ x ∈ d.shape, x < 2 ^ 32
  name256 : d.name.length = 256

theorem length_encDesc {d : Desc} (h : DescWF d) : (encDesc d).length = 352 := by
  simp [encDesc, h.shape16, h.name256]

theorem parse_encDesc {d : Desc} (h : DescWF d) :
    parseDesc (encDesc d) = { d with id := d.id % 256 ^ 4 } := by
  unfold parseDesc encDesc
  simp only []
  rw [List.take_left' (by simp), List.drop_left' (by simp), List.take_left' (by simp),
    List.drop_left' (by simp), List.take_left' (by simp), List.drop_left' (by simp),
    List.take_left' (by simp), List.drop_left' (by simp), List.take_left' (by simp),
    List.drop_left' (by simp), List.take_left' (by simp [h.shape16]),
    List.drop_left' (by simp [h.shape16])]
  have h16 := h.shape16
  have hd := decInts_encInts d.shape h.dims
  rw [h16] at hd
  rw [hd, leVal_leBytes_mod, leVal_leBytes (by have := h.ty; omega),
    leVal_leBytes (by have := h.size; omega), leVal_leBytes (by have := h.off; omega),
    leVal_leBytes (by have := h.shapeLen; omega)]

@[simp] theorem length_encHeader (n o : Nat) : (encHeader n o).length = 532 := by
  simp [encHeader, -List.reduceReplicate]

theorem parse_encHeader {n o : Nat} (hn : n < 2 ^ 32) (ho : o < 2 ^ 64) :
    parseHeader (encHeader n o) = ⟨0x519A, 2, n, o⟩ := by
  unfold parseHeader encHeader
  simp only []
  rw [List.take_left' (by simp), List.drop_left' (by simp), List.take_left' (by simp),
    List.drop_left' (by simp), List.drop_left' (by rw [List.length_replicate]), List.take_left' (by simp),
    List.drop_left' (by simp), List.take_of_length_le (by simp)]
  rw [leVal_leBytes (by omega), leVal_leBytes (by omega), leVal_leBytes (by omega),
    leVal_leBytes (by omega)]

theorem entryV2_id (m : Bool) (f : List UInt8) (d : Desc) (i : Nat) :
    entryV2 m f { d with id := i } = entryV2 m f d := rfl

theorem push_ok {acc : Params} {n : List UInt8} {t : Tensor} (h : n ∉ acc.map (·.1)) :
    push acc n t = .ok (acc ++ [(n, t)]) := by unfold push; rw [if_neg h]

theorem bind_ok {α β : Type} (a : α) (g : α → Res β) : (Except.ok a >>= g : Res β) = g a := rfl

/-- The reader loop over well-formed consecutive descriptors. -/
theorem loopV2_ok (m : Bool) (f : List UInt8) (base : Nat) :
    ∀ (ds : List Desc) (es : Params) (i : Nat) (acc : Params),
      List.Forall₂ (fun d e => DescWF d ∧ entryV2 m f d = .ok e) ds es →
      Has f (base + i * 352) (ds.flatMap encDesc) →
      ((acc ++ es).map (·.1)).Nodup →
      loopV2 m f base ds.length i acc = .ok (acc ++ es) := by
  intro ds
  induction ds with
  | nil => intro es i acc h _ _; cases h; simp [loopV2]
  | cons d ds ih =>
    intro es i acc h hf hnd
    cases h with
    | @cons _ e _ es hde hrest =>
    obtain ⟨hwf, he⟩ := hde
    rw [List.flatMap_cons] at hf
    simp only [List.length_cons, loopV2]
    rw [hf.left.rd' (length_encDesc hwf), bind_ok, parse_encDesc hwf, entryV2_id, he, bind_ok,
      push_ok, bind_ok]
    · rw [ih es (i + 1) (acc ++ [e]) hrest]
      · simp
      · have := hf.right
        rw [length_encDesc hwf] at this
        rw [Nat.add_mul, ← Nat.add_assoc]; simpa using this
      · simpa using hnd
    · intro hmem
      simp only [List.map_append, List.map_cons] at hnd
      rw [List.nodup_append] at hnd
      exact hnd.2.2 _ hmem _ (by simp) rfl

theorem readV2_ok (m : Bool) (f : List UInt8) (ds : List Desc) (es : Params)
    (hn : ds.length < 2 ^ 32)
    (hh : Has f 0 (encHeader ds.length 532))
    (h : List.Forall₂ (fun d e => DescWF d ∧ entryV2 m f d = .ok e) ds es)
    (hf : Has f 532 (ds.flatMap encDesc))
    (hnd : (es.map (·.1)).Nodup) :
    readV2 m f = .ok es := by
  unfold readV2
  rw [hh.rd' (by simp), bind_ok]
  simp only []
  rw [parse_encHeader hn (by norm_num)]
  simp only [ne_eq, not_true_eq_false, if_false]
  simpa using loopV2_ok m f 532 ds es 0 [] h (by simpa using hf) (by simpa using hnd)

@[simp] theorem length_shapeField (s : List Nat) (h : s.length ≤ 16) : (shapeField s).length = 16 := by
  simp [shapeField]; omega

theorem take_shapeField (s : List Nat) (h : s.length ≤ 16) : (shapeField s).take s.length = s := by
  simp [shapeField, List.take_of_length_le h]

theorem shapeField_lt (s : List Nat) (h : ∀ d ∈ s, d < 2 ^ 31) : ∀ d ∈ shapeField s, d < 2 ^ 32 := by
  intro d hd
  simp only [shapeField, List.mem_append, List.mem_replicate] at hd
  rcases hd with hd | ⟨_, rfl⟩
  · have := h d (List.mem_of_mem_take hd); omega
  · norm_num

theorem takeWhile_ne_zero {s : List UInt8} (h : (0 : UInt8) ∉ s) (k : Nat) :
    (s ++ List.replicate k 0).takeWhile (· ≠ 0) = s := by
  induction s with
  | nil => cases k <;> simp [List.replicate_succ]
  | cons a s ih =>
    simp only [List.mem_cons, not_or] at h
    simp only [List.cons_append, List.takeWhile_cons]
    rw [ih h.2]
    simp [Ne.symm h.1]

theorem cstr_self {s : List UInt8} (h : (0 : UInt8) ∉ s) : cstr s = s := by
  have := takeWhile_ne_zero h 0
  simpa [cstr] using this

theorem cstr_cNameField {s : List UInt8} (h : (0 : UInt8) ∉ s) (hl : s.length ≤ 255) :
    cstr (cNameField s) = s := by
  unfold cNameField
  rw [cstr_self h, List.take_of_length_le hl]
  exact takeWhile_ne_zero h _

theorem length_cNameField (s : List UInt8) : (cNameField s).length = 256 := by
  have : ((cstr s).take 255).length ≤ 255 := by simp
  simp only [cNameField, List.length_append, List.length_replicate]; omega

theorem length_pyNameField (s : List UInt8) : (pyNameField s).length = 256 := by
  simp [pyNameField]; omega

theorem cstr_pyNameField {s : List UInt8} (h : (0 : UInt8) ∉ s) (hl : s.length ≤ 256) :
    cstr (pyNameField s) = s := by
  unfold pyNameField
  rw [List.take_of_length_le (by simp; omega)]
  exact takeWhile_ne_zero h _

/-- Shape and dtype describe exactly `len` bytes of data. -/
structure Fits (dtype : Nat) (shape : List Nat) (len : Nat) : Prop where
  ne : shape ≠ []
  dims : ∀ d ∈ shape, d < 2 ^ 31
  small : numel shape * (dtInfo dtype).2 < 2 ^ 64
  lanes : (dtInfo dtype).1 ∣ numel shape
  len : len = numel shape / (dtInfo dtype).1 * (dtInfo dtype).2

theorem createSize_ok {dtype shape len} (h : Fits dtype shape len) :
    createSize shape dtype = .ok len := by
  unfold createSize
  rw [if_neg, if_neg, ← h.len]
  · simpa using Nat.mod_eq_zero_of_dvd h.lanes
  · rintro (h1 | ⟨d, hd, h2⟩ | h3)
    · exact h.ne h1
    · have := h.dims d hd; omega
    · have := h.small; omega

/-- One descriptor whose fields describe data present in the file is loaded, by both readers. -/
theorem entryV2_ok (m : Bool) (f : List UInt8) (d : Desc) (n : List UInt8) (shape : List Nat)
    (data : List UInt8) (hs : shape.length ≤ 16) (hsl : d.shapeLen = shape.length)
    (hsf : d.shape = shapeField shape) (hn : cstr d.name = n) (hsz : d.size = data.length)
    (hfit : Fits d.ty shape data.length) (hdata : Has f d.off data) :
    entryV2 m f d = .ok (n, ⟨n, d.ty, shape, rowStrides shape, 0, data⟩) := by
  unfold entryV2
  rw [if_neg (by omega), hsl, hsf, take_shapeField _ hs]
  simp only [createSize_ok hfit, bind_ok]
  have hl : loadV2 m f d data.length = .ok data := by
    unfold loadV2
    cases m
    · simp [hsz, hdata.rd, bind_ok, pure, Except.pure]
    · simp [hsz, hdata.rd]
  simp [hl, bind_ok, hn, pure, Except.pure]

/-! PyFile -/

theorem write_mid (a b c bs : List UInt8) (p : Nat) (hp : a.length = p) (h : bs.length = b.length) :
    (PyFile.write ⟨a ++ (b ++ c), p⟩ bs) = ⟨a ++ (bs ++ c), p + bs.length⟩ := by
  subst hp
  have : (a ++ (b ++ c)).drop (a.length + bs.length) = c := by
    rw [h, ← List.append_assoc, List.drop_left' (by simp)]
  simp [PyFile.write, this]

theorem write_tail (a bs : List UInt8) (p : Nat) (hp : a.length = p) :
    (PyFile.write ⟨a, p⟩ bs) = ⟨a ++ bs, p + bs.length⟩ := by
  subst hp
  simp [PyFile.write]

end Verif.ParamFile
