import Verif.Prelude
import Mathlib.Data.List.GetD
/-
Row-major index arithmetic: the small specification vocabulary for tensors (C18-C20, C40).
-/
namespace Verif.Tensor

/-- Number of elements of a shape. -/
def numel : List Nat → Nat
  | [] => 1
  | d :: ds => d * numel ds

/-- `idx` is a valid index of `shape`: same rank, every coordinate below its dimension. -/
def InB : List Nat → List Nat → Prop
  | [], [] => True
  | d :: ds, i :: is => i < d ∧ InB ds is
  | _, _ => False

/-- Row-major position of an index. -/
def lin : List Nat → List Nat → Nat
  | _ :: ds, i :: is => i * numel ds + lin ds is
  | _, _ => 0

/-- `Σ idx[i] * stride[i]`. -/
def dot : List Nat → List Int → Int
  | i :: is, s :: ss => (i : Int) * s + dot is ss
  | _, _ => 0

/-- Row-major strides. -/
def rowStrides : List Nat → List Int
  | [] => []
  | _ :: ds => (numel ds : Int) :: rowStrides ds

theorem InB.length : ∀ {s i : List Nat}, InB s i → i.length = s.length
  | [], [], _ => rfl
  | _ :: _, _ :: _, h => by simp [InB.length h.2]

theorem InB.get : ∀ {s i : List Nat}, InB s i → ∀ k, k < s.length → i.getD k 0 < s.getD k 0
  | d :: ds, a :: as, h, 0, _ => by simpa using h.1
  | d :: ds, a :: as, h, k + 1, hk => by
    simpa using InB.get h.2 k (by simpa using hk)

theorem inB_of_get : ∀ {s i : List Nat}, i.length = s.length →
    (∀ k, k < s.length → i.getD k 0 < s.getD k 0) → InB s i
  | [], [], _, _ => trivial
  | d :: ds, a :: as, hl, h =>
    ⟨by simpa using h 0 (by simp), inB_of_get (by simpa using hl) (fun k hk => by
      simpa using h (k + 1) (by simpa using hk))⟩

theorem lin_lt : ∀ {s i : List Nat}, InB s i → lin s i < numel s
  | [], [], _ => by simp [lin, numel]
  | d :: ds, a :: as, h => by
    have h1 := lin_lt h.2
    have : (a + 1) * numel ds ≤ d * numel ds := Nat.mul_le_mul_right _ h.1
    simp only [lin, numel]
    rw [Nat.add_mul] at this
    omega

theorem dot_rowStrides : ∀ {s i : List Nat}, i.length = s.length → dot i (rowStrides s) = lin s i
  | [], [], _ => rfl
  | d :: ds, a :: as, h => by
    simp only [rowStrides, dot, lin, dot_rowStrides (s := ds) (i := as) (by simpa using h)]
    push_cast; rfl

theorem numel_pos_of_inB : ∀ {s i : List Nat}, InB s i → 0 < numel s := fun h =>
  Nat.lt_of_le_of_lt (Nat.zero_le _) (lin_lt h)

/-- Decoding loop `for d = ndim-1 … 0 { coord[d] = t % shape[d]; t /= shape[d]; }`:
coordinates and the remaining quotient. -/
def decode : List Nat → Nat → List Nat × Nat
  | [], k => ([], k)
  | d :: ds, k => let r := decode ds k; ((r.2 % d) :: r.1, r.2 / d)

def coords (s : List Nat) (k : Nat) : List Nat := (decode s k).1

theorem decode_lin : ∀ {s i : List Nat} (q : Nat), InB s i →
    decode s (q * numel s + lin s i) = (i, q)
  | [], [], q, _ => by simp [decode, numel, lin]
  | d :: ds, a :: as, q, h => by
    have : q * numel (d :: ds) + lin (d :: ds) (a :: as) = (q * d + a) * numel ds + lin ds as := by
      simp only [numel, lin]; ring
    simp only [decode, this, decode_lin _ h.2]
    have ha := h.1
    have h1 : (q * d + a) % d = a := by
      rw [Nat.add_comm, Nat.add_mul_mod_self_right, Nat.mod_eq_of_lt ha]
    have h2 : (q * d + a) / d = q := by
      rw [Nat.add_comm, Nat.add_mul_div_right _ _ (by omega), Nat.div_eq_of_lt ha, Nat.zero_add]
    rw [h1, h2]

theorem coords_lin {s i : List Nat} (h : InB s i) : coords s (lin s i) = i := by
  have := decode_lin 0 h
  simp only [Nat.zero_mul, Nat.zero_add] at this
  simp [coords, this]

theorem decode_spec : ∀ (s : List Nat) (k : Nat), 0 < numel s →
    InB s (decode s k).1 ∧ k = (decode s k).2 * numel s + lin s (decode s k).1
  | [], k, _ => by simp [decode, InB, numel, lin]
  | d :: ds, k, h => by
    simp only [numel] at h
    have hd : 0 < d := Nat.pos_of_mul_pos_right h
    have hds : 0 < numel ds := Nat.pos_of_mul_pos_left h
    obtain ⟨h1, h2⟩ := decode_spec ds k hds
    refine ⟨⟨Nat.mod_lt _ hd, h1⟩, ?_⟩
    simp only [decode, numel, lin]
    have := Nat.div_add_mod (decode ds k).2 d
    calc k = (decode ds k).2 * numel ds + lin ds (decode ds k).1 := h2
      _ = (d * ((decode ds k).2 / d) + (decode ds k).2 % d) * numel ds + lin ds (decode ds k).1 := by
        rw [this]
      _ = _ := by ring

theorem coords_spec {s : List Nat} {k : Nat} (h : k < numel s) :
    InB s (coords s k) ∧ lin s (coords s k) = k := by
  obtain ⟨h1, h2⟩ := decode_spec s k (by omega)
  refine ⟨h1, ?_⟩
  have hq : (decode s k).2 = 0 := by
    by_contra hne
    have : 1 * numel s ≤ (decode s k).2 * numel s := Nat.mul_le_mul_right _ (by omega)
    omega
  rw [hq] at h2
  simp only [coords]
  omega

theorem lin_inj {s i j : List Nat} (hi : InB s i) (hj : InB s j) (h : lin s i = lin s j) : i = j := by
  rw [← coords_lin hi, h, coords_lin hj]

/-- A tensor as the runtime sees it: a view (offset, shape, strides, in elements) of memory. `mem a`
is `none` where nothing was written or the address lies outside the allocation.
mllm/core/TensorViewImpl.hpp L94-99. Quantised types with more than one lane per block are not
modelled here. -/
structure Tens (α : Type) where
  off : Int
  shape : List Nat
  stride : List Int
  mem : Int → Option α

/-- Address of an element: `offsettedPtr`, mllm/core/TensorViewImpl.hpp L80-88. -/
def Tens.addr {α} (t : Tens α) (idx : List Nat) : Int := t.off + dot idx t.stride

/-- The element at an index. -/
def Tens.elem {α} (t : Tens α) (idx : List Nat) : Option α := t.mem (t.addr idx)

/-- The tensor is laid out in row-major order. -/
def Tens.Contig {α} (t : Tens α) : Prop := t.stride = rowStrides t.shape

theorem Tens.Contig.addr {α} {t : Tens α} (h : t.Contig) {idx} (hi : InB t.shape idx) :
    t.addr idx = t.off + lin t.shape idx := by
  rw [Tens.addr, h, dot_rowStrides hi.length]

/-- A freshly allocated tensor with the given contents. -/
def fresh {α} (shape : List Nat) (buf : Nat → Option α) : Tens α :=
  ⟨0, shape, rowStrides shape, fun a => if 0 ≤ a then buf a.toNat else none⟩

theorem fresh_elem {α} (shape : List Nat) (buf : Nat → Option α) {idx} (h : InB shape idx) :
    (fresh shape buf).elem idx = buf (lin shape idx) := by
  have : (fresh shape buf).addr idx = (lin shape idx : Int) := by
    simp [fresh, Tens.addr, dot_rowStrides h.length]
  rw [Tens.elem, this]
  simp [fresh]

theorem fresh_contig {α} (shape : List Nat) (buf : Nat → Option α) : (fresh shape buf).Contig := rfl

end Verif.Tensor
