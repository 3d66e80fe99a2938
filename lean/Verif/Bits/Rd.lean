import Verif.Bits.Codec
import Mathlib.Algebra.BigOperators.Intervals

/-!
# Reading two buffers through advancing pointers

The kernels and the unpacker read a weight buffer and an activation buffer through two byte pointers that only
move forward.  A reader gets both memories and both positions and returns a value and the new positions.
-/

namespace Verif.Bits

/-- The bytes behind a `void*`. -/
abbrev Mem := Nat → Byte

/-- `weight_data_byte_ptr` and `activation_ptr` as offsets. -/
structure Ptr where
  w : Nat
  a : Nat

/-- A piece of code that reads through both pointers. -/
def M (α : Type) := Mem → Mem → Ptr → α × Ptr

instance : Monad M where
  pure x := fun _ _ p => (x, p)
  bind r f := fun W A p => f (r W A p).1 W A (r W A p).2

/-- `for (i = 0; i < n; i++)` with a state. -/
def loopM {σ : Type} (n : Nat) (init : σ) (f : Nat → σ → M σ) : M σ :=
  match n with
  | 0 => pure init
  | n + 1 => do let s ← loopM n init f; f n s

/-- `*(int32_t*)p` on a little-endian machine. -/
def read32 (m : Mem) (p : Nat) : BitVec 32 := (m (p + 3) ++ m (p + 2) ++ m (p + 1) ++ m p : BitVec (8 + 8 + 8 + 8))

/-- The bytes of a 32-bit store. -/
def le32 (x : BitVec 32) : List Byte :=
  [x.extractLsb' 0 8, x.extractLsb' 8 8, x.extractLsb' 16 8, x.extractLsb' 24 8]

/-- Read `n` words of the weight buffer (`float` or `int32_t`). -/
def wordsW (n : Nat) : M (Nat → BitVec 32) := fun W _ p => (fun j => read32 W (p.w + 4 * j), ⟨p.w + 4 * n, p.a⟩)

/-- Read one word of the activation buffer. -/
def wordA : M (BitVec 32) := fun _ A p => (read32 A p.a, ⟨p.w, p.a + 4⟩)

/-- Read `n` bytes of the activation buffer. -/
def bytesA (n : Nat) : M (Nat → Byte) := fun _ A p => (fun i => A (p.a + i), ⟨p.w, p.a + n⟩)

/-- Read `n` bytes of the weight buffer. -/
def bytesW (n : Nat) : M (Nat → Byte) := fun W _ p => (fun i => W (p.w + i), ⟨p.w + n, p.a⟩)

/-- Read one packed block. -/
def blockW (c : Codec) : M (Nat → Byte) := fun W _ p => (c.unpack fun i => W (p.w + i), ⟨p.w + c.b, p.a⟩)

/-! ## What the memory holds -/

/-- The bytes `L` are at `p`. -/
def At (m : Mem) (p : Nat) (L : List Byte) : Prop := ∀ i (h : i < L.length), m (p + i) = L[i]

theorem At.append {m : Mem} {p : Nat} {L L' : List Byte} (h : At m p (L ++ L')) : At m p L ∧ At m (p + L.length) L' := by
  constructor
  · intro i hi
    rw [h i (by rw [List.length_append]; omega), List.getElem_append_left hi]
  · intro i hi
    rw [Nat.add_assoc, h (L.length + i) (by rw [List.length_append]; omega), List.getElem_append_right (by omega)]
    simp

theorem le32_bytes {m : Mem} {p : Nat} {x : BitVec 32} (h : At m p (le32 x)) : read32 m p = x := by
  have h0 := h 0 (by simp [le32])
  have h1 := h 1 (by simp [le32])
  have h2 := h 2 (by simp [le32])
  have h3 := h 3 (by simp [le32])
  simp only [le32, List.getElem_cons_zero, List.getElem_cons_succ, Nat.add_zero] at h0 h1 h2 h3
  rw [read32, h0, h1, h2, h3]
  apply BitVec.eq_of_getLsbD_eq
  intro i hi
  rw [BitVec.getLsbD_append, BitVec.getLsbD_append, BitVec.getLsbD_append]
  simp only [BitVec.getLsbD_extractLsb']
  by_cases a : i < 8
  · simp [a]
  · by_cases b : i < 16
    · have : i - 8 < 8 := by omega
      simp [a, this, show 8 + (i - 8) = i by omega]
    · by_cases c : i < 24
      · have h1 : ¬ i - 8 < 8 := by omega
        have h2 : i - 8 - 8 < 8 := by omega
        simp [a, h1, h2, show 16 + (i - 8 - 8) = i by omega]
      · have h1 : ¬ i - 8 < 8 := by omega
        have h2 : ¬ i - 8 - 8 < 8 := by omega
        have h3 : i - 8 - 8 - 8 < 8 := by omega
        simp [a, h1, h2, h3, show 24 + (i - 8 - 8 - 8) = i by omega]

theorem le32_length (x : BitVec 32) : (le32 x).length = 4 := rfl

theorem flatMap_length {α β : Type} (f : α → List β) (n : Nat) (l : List α) (h : ∀ x ∈ l, (f x).length = n) :
    (l.flatMap f).length = l.length * n := by
  induction l with
  | nil => simp
  | cons x l ih =>
    rw [List.flatMap_cons, List.length_append, h x (by simp), ih (fun y hy => h y (by simp [hy])), List.length_cons]
    ring

theorem words_at {m : Mem} {p n : Nat} {x : Nat → BitVec 32} (h : At m p ((List.range n).flatMap fun j => le32 (x j))) :
    ∀ j, j < n → read32 m (p + 4 * j) = x j := by
  induction n with
  | zero => intro j hj; omega
  | succ n ih =>
    rw [List.range_succ, List.flatMap_append] at h
    obtain ⟨h1, h2⟩ := h.append
    intro j hj
    by_cases hjn : j < n
    · exact ih h1 j hjn
    · obtain rfl : j = n := by omega
      rw [flatMap_length _ 4 _ (fun _ _ => le32_length _), List.length_range] at h2
      rw [Nat.mul_comm]
      apply le32_bytes
      simpa using h2

/-! ## Specification of a reader -/

/-- Wherever the bytes `L` are under the weight pointer and `K` under the activation pointer, the code returns a
value with `Q` and leaves both pointers just behind them. -/
def Reads {α : Type} (r : M α) (L K : List Byte) (Q : α → Prop) : Prop :=
  ∀ W A p, At W p.w L → At A p.a K → Q (r W A p).1 ∧ (r W A p).2 = ⟨p.w + L.length, p.a + K.length⟩

theorem Reads.pure {α : Type} {x : α} {Q : α → Prop} (h : Q x) : Reads (Pure.pure x : M α) [] [] Q :=
  fun _ _ _ _ _ => ⟨h, rfl⟩

theorem Reads.bind {α β : Type} {r : M α} {f : α → M β} {L L' K K' : List Byte} {Q : α → Prop} {Q' : β → Prop}
    (h : Reads r L K Q) (h' : ∀ x, Q x → Reads (f x) L' K' Q') : Reads (r >>= f) (L ++ L') (K ++ K') Q' := by
  intro W A p hW hA
  obtain ⟨a, b⟩ := h W A p hW.append.1 hA.append.1
  have hw := hW.append.2
  have ha := hA.append.2
  obtain ⟨c, d⟩ := h' _ a W A (r W A p).2 (by rw [b]; exact hw) (by rw [b]; exact ha)
  refine ⟨c, ?_⟩
  show (f (r W A p).1 W A (r W A p).2).2 = _
  rw [d, b, List.length_append, List.length_append, Nat.add_assoc, Nat.add_assoc]

theorem Reads.mono {α : Type} {r : M α} {L K : List Byte} {Q Q' : α → Prop} (h : Reads r L K Q) (hq : ∀ x, Q x → Q' x) :
    Reads r L K Q' := fun W A p hW hA => ⟨hq _ (h W A p hW hA).1, (h W A p hW hA).2⟩

theorem Reads.loop {σ : Type} {n : Nat} {init : σ} {f : Nat → σ → M σ} {L K : Nat → List Byte} (I : Nat → σ → Prop)
    (h0 : I 0 init) (hs : ∀ i s, i < n → I i s → Reads (f i s) (L i) (K i) (I (i + 1))) :
    Reads (loopM n init f) ((List.range n).flatMap L) ((List.range n).flatMap K) (I n) := by
  induction n with
  | zero => exact Reads.pure h0
  | succ n ih =>
    rw [List.range_succ, List.flatMap_append, List.flatMap_append]
    have := Reads.bind (ih fun i s hi => hs i s (by omega)) (fun s hI => hs n s (by omega) hI)
    simp only [List.flatMap_cons, List.flatMap_nil, List.append_nil]
    exact this

theorem Reads.words (n : Nat) (x : Nat → BitVec 32) :
    Reads (wordsW n) ((List.range n).flatMap fun j => le32 (x j)) [] fun y => ∀ j, j < n → y j = x j := by
  intro W A p hW _
  refine ⟨words_at hW, ?_⟩
  rw [flatMap_length _ 4 _ (fun _ _ => le32_length _), List.length_range, Nat.mul_comm]
  rfl

theorem Reads.wordA (x : BitVec 32) : Reads wordA [] (le32 x) fun y => y = x :=
  fun _ _ _ _ hA => ⟨le32_bytes hA, rfl⟩

theorem Reads.bytesA (n : Nat) (x : Nat → Byte) :
    Reads (bytesA n) [] ((List.range n).map x) fun y => ∀ j, j < n → y j = x j := by
  intro W A p _ hA
  refine ⟨fun j hj => ?_, by simp [Bits.bytesA]⟩
  have := hA j (by simpa using hj)
  simpa [Bits.bytesA] using this

theorem Reads.bytesW (n : Nat) (x : Nat → Byte) :
    Reads (bytesW n) ((List.range n).map x) [] fun y => ∀ j, j < n → y j = x j := by
  intro W A p hW _
  refine ⟨fun j hj => ?_, by simp [Bits.bytesW]⟩
  have := hW j (by simpa using hj)
  simpa [Bits.bytesW] using this

/-- One packed block as bytes. -/
def block (c : Codec) (u : Nat → Byte) : List Byte := (List.range c.b).map (c.pack u)

theorem Reads.block {c : Codec} {u : Nat → Byte}
    (h : ∀ mem : Mem, (∀ p, p < c.b → mem p = c.pack u p) → ∀ i, i < c.n → c.unpack mem i = u i) :
    Reads (blockW c) (block c u) [] fun y => ∀ i, i < c.n → y i = u i := by
  intro W A p hW _
  refine ⟨fun i hi => h _ (fun q hq => ?_) i hi, by simp [blockW, Bits.block]⟩
  have := hW q (by simpa [Bits.block] using hq)
  simpa [Bits.block] using this

/-! ## Writes -/

/-- A list of stores, in order. -/
def applyW {κ β : Type} [DecidableEq κ] (old : κ → β) (ws : List (κ × β)) : κ → β :=
  ws.foldl (fun m w => Function.update m w.1 w.2) old

theorem applyW_other {κ β : Type} [DecidableEq κ] (ws : List (κ × β)) : ∀ (old : κ → β) (k : κ),
    (∀ v, (k, v) ∉ ws) → applyW old ws k = old k := by
  induction ws with
  | nil => intro old k _; rfl
  | cons w ws ih =>
    intro old k h
    show applyW (Function.update old w.1 w.2) ws k = old k
    rw [ih _ k (fun v hv => h v (by simp [hv]))]
    apply Function.update_of_ne
    rintro rfl
    exact h w.2 (by simp)

theorem applyW_same {κ β : Type} [DecidableEq κ] (ws : List (κ × β)) : ∀ (old : κ → β) (k : κ) (x : β),
    (∀ v, (k, v) ∈ ws → v = x) → (k, x) ∈ ws → applyW old ws k = x := by
  induction ws with
  | nil => intro old k x _ h; simp at h
  | cons w ws ih =>
    intro old k x h hm
    show applyW (Function.update old w.1 w.2) ws k = x
    by_cases hin : (k, x) ∈ ws
    · exact ih _ k x (fun v hv => h v (by simp [hv])) hin
    · rw [List.mem_cons] at hm
      rcases hm with rfl | hm
      · rw [applyW_other]
        · simp
        · intro v hv
          exact hin (h v (by simp [hv]) ▸ hv)
      · exact absurd hm hin

end Verif.Bits
