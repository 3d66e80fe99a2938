import Verif.Kern.Conv

/-! Lemmas about loops, output lengths and buffers for the convolutions. -/

namespace Verif.Kern

open Verif.Tensor (numel InB lin lin_lt)

section
variable {α : Type} [CommRing α]

theorem each_succ (n : Nat) (f : Nat → α → α) (s : α) : each (n + 1) f s = f n (each n f s) := by
  simp [each, List.range_succ]

/-- A loop whose rounds each add something. -/
theorem each_add {n : Nat} {f : Nat → α → α} {g : Nat → α} (h : ∀ i < n, ∀ s, f i s = s + g i) (s : α) :
    each n f s = s + ∑ i ∈ Finset.range n, g i := by
  induction n with
  | zero => simp [each]
  | succ n ih =>
    rw [each_succ, ih (fun i hi => h i (by omega)), h n (by omega), Finset.sum_range_succ, add_assoc]

end

theorem convLen_fits {dim k stride p dil : Nat} (hk : 0 < k) (hf : dil * (k - 1) < dim + 2 * p) :
    convLen dim k stride p dil = (((dim + 2 * p - dil * (k - 1) - 1) / stride + 1 : Nat) : Int) := by
  unfold convLen
  have e : ((dim : Int) + 2 * p - dil * ((k : Int) - 1) - 1) = ((dim + 2 * p - dil * (k - 1) - 1 : Nat) : Int) := by
    have : ((k - 1 : Nat) : Int) = (k : Int) - 1 := by omega
    have e2 : ((dil * (k - 1) : Nat) : Int) = (dil : Int) * ((k : Int) - 1) := by rw [Nat.cast_mul, this]
    rw [← e2]
    omega
  rw [e, Int.tdiv_eq_ediv_of_nonneg (by omega)]
  push_cast
  rfl

theorem outLen_fits {dim k stride p dil : Nat} (hs : 0 < stride) (hf : dil * (k - 1) < dim + 2 * p) :
    OutLen ((dim + 2 * p - dil * (k - 1) - 1) / stride + 1) dim k stride p dil := by
  intro t
  rw [Nat.lt_add_one_iff, Nat.le_div_iff_mul_le hs]
  omega

/-- A kernel that is too large, but by no more than the stride minus one: one output although it fits nowhere. -/
theorem convLen_short {dim k stride p dil : Nat} (hk : 0 < k) (hf : dim + 2 * p ≤ dil * (k - 1))
    (hs : dil * (k - 1) + 1 < dim + 2 * p + stride) : convLen dim k stride p dil = 1 := by
  unfold convLen
  have : ((k - 1 : Nat) : Int) = (k : Int) - 1 := by omega
  have e2 : ((dil * (k - 1) : Nat) : Int) = (dil : Int) * ((k : Int) - 1) := by rw [Nat.cast_mul, this]
  have e : ((dim : Int) + 2 * p - dil * ((k : Int) - 1) - 1) = -((dil * (k - 1) + 1 - (dim + 2 * p) : Nat) : Int) := by
    rw [← e2]
    omega
  rw [e, Int.neg_tdiv, Int.tdiv_eq_ediv_of_nonneg (by omega)]
  have : (dil * (k - 1) + 1 - (dim + 2 * p)) / stride = 0 := Nat.div_eq_of_lt (by omega)
  have h2 : (((dil * (k - 1) + 1 - (dim + 2 * p) : Nat) : Int) / (stride : Int)) = 0 := by exact_mod_cast this
  rw [h2]
  rfl

theorem asSize_ok {stride n : Nat} (h : 0 < stride) : asSize stride (n : Int) = .ok n := by
  unfold asSize
  rw [if_neg (by omega), if_neg (by omega)]
  simp

theorem decode3 {C T b c t : Nat} (hc : c < C) (ht : t < T) :
    (b * (C * T) + (c * T + t)) / (C * T) = b ∧ (b * (C * T) + (c * T + t)) % (C * T) / T = c ∧
      (b * (C * T) + (c * T + t)) % T = t := by
  have h1 : c * T + t < C * T := by
    calc c * T + t < (c + 1) * T := by rw [Nat.add_mul]; omega
      _ ≤ C * T := Nat.mul_le_mul_right _ hc
  have hT : 0 < T := by omega
  refine ⟨?_, ?_, ?_⟩
  · rw [Nat.mul_comm b, Nat.mul_add_div (by omega), Nat.div_eq_of_lt h1]; rfl
  · rw [Nat.mul_comm b, Nat.mul_add_mod, Nat.mod_eq_of_lt h1, Nat.mul_comm c, Nat.mul_add_div hT, Nat.div_eq_of_lt ht]; rfl
  · rw [show b * (C * T) + (c * T + t) = T * (b * C + c) + t by ring, Nat.mul_add_mod, Nat.mod_eq_of_lt ht]

theorem out_get {α : Type} {shape ix : List Nat} (h : InB shape ix) (m : Nat → α) : (outRows shape m).get ix = m (lin shape ix) := by
  simp only [Ten.get, outRows]
  rw [pos_rowStr h]

theorem Ten.Is.get {α : Type} {t : Ten α} {shape ix : List Nat} (h : t.Is shape) (hix : InB shape ix) :
    t.get ix = t.data (lin shape ix) := by
  rw [Ten.get, h.2, pos_rowStr hix]

theorem lin3 (B C T b c t : Nat) : lin [B, C, T] [b, c, t] = b * (C * T) + (c * T + t) := by simp [lin, numel]

theorem inB3 {B C T : Nat} {ix : List Nat} (h : InB [B, C, T] ix) : ∃ b c t, ix = [b, c, t] ∧ b < B ∧ c < C ∧ t < T := by
  match ix, h with
  | [b, c, t], h => exact ⟨b, c, t, rfl, h.1, h.2.1, h.2.2.1⟩

/-- Zeros, then one body per cell: cell `i` is whatever body `i` makes of a zero. -/
theorem Exec.cells {α : Type} [Zero α] {n : Nat} {body : Nat → List (Upd α)} (hin : ∀ i < n, ∀ u ∈ body i, u.addr = i) {m m' : Nat → α}
    (h : Exec [[(List.range n).map fun i => Upd.put i 0], (List.range n).map body] m m') :
    (∀ i < n, ∃ m1 : Nat → α, m1 i = 0 ∧ m' i = run (body i) m1 i) ∧ ∀ x, n ≤ x → m' x = m x := by
  cases h with
  | cons s _ _ hi he =>
    have hrow := he.row (D := 1) (body := body) (by
      intro r hr u hu
      have := hin r hr u hu
      omega)
    have hz : ∀ i < n, run s m i = 0 := by
      intro i hi'
      rw [hi.owner i 0 (by simp) (by
        intro k hk hne
        simp at hk; omega)]
      have := run_pass (c := 0) (n := n) (fn := fun _ _ => (0 : α)) (m := m) hi'
      simpa [Upd.put] using this
    constructor
    · intro i hi'
      refine ⟨run s m, hz i hi', ?_⟩
      have := hrow.1 i hi' 0 (by omega)
      simpa using this
    · intro x hx
      rw [hrow.2 x (by omega)]
      refine hi.other x ?_ m
      intro j hj u hu
      simp only [List.mem_singleton] at hj
      subst hj
      obtain ⟨i, hi', rfl⟩ := List.mem_map.mp hu
      have := List.mem_range.mp hi'
      simp only [Upd.put]
      omega

/-! ### Sequential loops that fill a block -/

section
variable {α : Type}

/-- The updates stay inside the `n` cells from `c` on and leave `val` there. -/
def SeqFill (us : List (Upd α)) (c n : Nat) (val : Nat → α) : Prop :=
  (∀ u ∈ us, c ≤ u.addr ∧ u.addr < c + n) ∧ ∀ m : Nat → α, ∀ j < n, run us m (c + j) = val j

theorem SeqFill.other {us : List (Upd α)} {c n : Nat} {val : Nat → α} (h : SeqFill us c n val) (m : Nat → α) {x : Nat}
    (hx : x < c ∨ c + n ≤ x) : run us m x = m x := by
  refine run_other ?_ m
  intro u hu
  have := h.1 u hu
  omega

theorem SeqFill.append {us vs : List (Upd α)} {c n k : Nat} {f : Nat → α} (h1 : SeqFill us c n f)
    (h2 : SeqFill vs (c + n) k fun j => f (n + j)) : SeqFill (us ++ vs) c (n + k) f := by
  constructor
  · intro u hu
    rcases List.mem_append.mp hu with hu | hu
    · have := h1.1 u hu; omega
    · have := h2.1 u hu; omega
  · intro m j hj
    rw [run_append]
    by_cases hjn : j < n
    · rw [h2.other _ (by omega), h1.2 _ j hjn]
    · have := h2.2 (run us m) (j - n) (by omega)
      beta_reduce at this
      rw [show c + n + (j - n) = c + j by omega, show n + (j - n) = j by omega] at this
      exact this

theorem SeqFill.flatMap {n L : Nat} {f : Nat → List (Upd α)} {c : Nat} {val : Nat → Nat → α}
    (h : ∀ i < n, SeqFill (f i) (c + i * L) L (val i)) :
    SeqFill ((List.range n).flatMap f) c (n * L) fun x => val (x / L) (x % L) := by
  induction n with
  | zero => exact ⟨by simp, by simp⟩
  | succ n ih =>
    rw [List.range_succ, List.flatMap_append, Nat.add_mul, Nat.one_mul]
    refine (ih fun i hi => h i (by omega)).append ?_
    have h0 := h n (by omega)
    simp only [List.flatMap_cons, List.flatMap_nil, List.append_nil]
    refine ⟨h0.1, fun m j hj => ?_⟩
    have hd : (n * L + j) / L = n ∧ (n * L + j) % L = j := by
      constructor
      · rw [Nat.mul_comm, Nat.mul_add_div (by omega), Nat.div_eq_of_lt hj]; rfl
      · rw [Nat.mul_comm, Nat.mul_add_mod, Nat.mod_eq_of_lt hj]
    beta_reduce
    rw [hd.1, hd.2]
    exact h0.2 m j hj

theorem SeqFill.pass {n c : Nat} {val : Nat → α} : SeqFill ((List.range n).map fun j => Upd.put (c + j) (val j)) c n val := by
  constructor
  · intro u hu
    exact mem_pass (fn := fun j _ => val j) hu
  · intro m j hj
    exact run_pass (fn := fun j _ => val j) hj

theorem divmod {i j L : Nat} (hj : j < L) : (i * L + j) / L = i ∧ (i * L + j) % L = j := by
  constructor
  · rw [Nat.mul_comm, Nat.mul_add_div (by omega), Nat.div_eq_of_lt hj]; rfl
  · rw [Nat.mul_comm, Nat.mul_add_mod, Nat.mod_eq_of_lt hj]

/-- Position `i * L + j` of rows of equal length. -/
theorem flatMap_getD {β : Type} {n L : Nat} {f : Nat → List β} (h : ∀ i < n, (f i).length = L) (d : β) :
    ((List.range n).flatMap f).length = n * L ∧
      ∀ i < n, ∀ j < L, ((List.range n).flatMap f).getD (i * L + j) d = (f i).getD j d := by
  induction n with
  | zero => simp
  | succ n ih =>
    obtain ⟨h1, h2⟩ := ih fun i hi => h i (by omega)
    rw [List.range_succ, List.flatMap_append]
    simp only [List.flatMap_cons, List.flatMap_nil, List.append_nil]
    refine ⟨by rw [List.length_append, h1, h n (by omega)]; ring, fun i hi j hj => ?_⟩
    by_cases hin : i < n
    · rw [← h2 i hin j hj]
      have hlt : i * L + j < n * L := by
        calc i * L + j < (i + 1) * L := by rw [Nat.add_mul]; omega
          _ ≤ n * L := Nat.mul_le_mul_right _ hin
      simp only [List.getD_eq_getElem?_getD]
      rw [List.getElem?_append_left (by omega)]
    · have : i = n := by omega
      subst this
      simp only [List.getD_eq_getElem?_getD]
      rw [List.getElem?_append_right (by omega), h1, show i * L + j - i * L = j by omega]

theorem sum_range_mul {M : Type} [AddCommMonoid M] (a b : Nat) (f : Nat → M) :
    ∑ l ∈ Finset.range (a * b), f l = ∑ i ∈ Finset.range a, ∑ j ∈ Finset.range b, f (i * b + j) := by
  induction a with
  | zero => simp
  | succ a ih => rw [Nat.add_mul, Nat.one_mul, Finset.sum_range_add, ih, Finset.sum_range_succ]

/-! ### Programs at an offset, one after the other -/

def shiftU (off : Nat) (u : Upd α) : Upd α := ⟨off + u.addr, u.fn⟩

theorem run_shift (off : Nat) (us : List (Upd α)) (m : Nat → α) :
    (fun x => run (us.map (shiftU off)) m (off + x)) = run us fun x => m (off + x) := by
  induction us generalizing m with
  | nil => rfl
  | cons u us ih =>
    simp only [List.map_cons, run]
    rw [ih]
    congr 1
    funext x
    by_cases hx : x = u.addr
    · subst hx; simp [shiftU]
    · rw [Function.update_of_ne hx, Function.update_of_ne]
      simpa [shiftU] using hx

theorem Interleave.unshift {off : Nat} : ∀ {s : List (Upd α)} {js : List (List (Upd α))},
    Interleave (js.map fun us => us.map (shiftU off)) s → ∃ s0, s = s0.map (shiftU off) ∧ Interleave js s0 := by
  intro s
  induction s with
  | nil =>
    intro js h
    cases h with
    | done hd =>
      refine ⟨[], rfl, .done fun j hj => ?_⟩
      have := hd _ (List.mem_map_of_mem hj)
      simpa using this
  | cons u s ih =>
    intro js h
    cases h with
    | step i _ rest _ hi hs =>
      rw [List.getElem?_map, Option.map_eq_some_iff] at hi
      obtain ⟨us, hus, he⟩ := hi
      cases us with
      | nil => simp at he
      | cons v us =>
        simp only [List.map_cons, List.cons.injEq] at he
        obtain ⟨rfl, rfl⟩ := he
        have : ((js.map fun us => us.map (shiftU off)).set i (us.map (shiftU off)))
            = (js.set i us).map fun us => us.map (shiftU off) := by rw [List.map_set]
        rw [this] at hs
        obtain ⟨s0, rfl, h0⟩ := ih hs
        exact ⟨v :: s0, rfl, .step i v us s0 hus h0⟩

theorem Exec.unshift {off : Nat} {ss : List (List (List (Upd α)))} : ∀ {m m' : Nat → α}, Exec (shiftProg off ss) m m' →
    Exec ss (fun x => m (off + x)) (fun x => m' (off + x)) ∧ ∀ x < off, m' x = m x := by
  induction ss with
  | nil =>
    intro m m' h
    cases h
    exact ⟨.nil _, fun _ _ => rfl⟩
  | cons js ss ih =>
    intro m m' h
    cases h with
    | cons s _ _ hi he =>
      obtain ⟨h1, h2⟩ := ih he
      obtain ⟨s0, rfl, h0⟩ := Interleave.unshift hi
      rw [run_shift] at h1
      refine ⟨.cons s0 _ _ h0 h1, fun x hx => ?_⟩
      rw [h2 x hx]
      refine run_other ?_ m
      intro u hu
      obtain ⟨v, -, rfl⟩ := List.mem_map.mp hu
      simp only [shiftU]
      omega

theorem Exec.app {a b : List (List (List (Upd α)))} : ∀ {m m' : Nat → α}, Exec (a ++ b) m m' → ∃ m1, Exec a m m1 ∧ Exec b m1 m' := by
  induction a with
  | nil => intro m m' h; exact ⟨m, .nil m, h⟩
  | cons js a ih =>
    intro m m' h
    cases h with
    | cons s _ _ hi he =>
      obtain ⟨m1, h1, h2⟩ := ih he
      exact ⟨m1, .cons s _ _ hi h1, h2⟩

/-- Programs that each fill their own block, one after the other. -/
theorem Exec.blocks {n S : Nat} {P : Nat → List (List (List (Upd α)))} {val : Nat → Nat → α}
    (h : ∀ b < n, ∀ m m', Exec (P b) m m' → (∀ j < S, m' (b * S + j) = val b j) ∧ ∀ x, x < b * S ∨ b * S + S ≤ x → m' x = m x) :
    ∀ {m m' : Nat → α}, Exec ((List.range n).flatMap P) m m' →
      (∀ b < n, ∀ j < S, m' (b * S + j) = val b j) ∧ ∀ x, n * S ≤ x → m' x = m x := by
  induction n with
  | zero =>
    intro m m' hex
    cases hex
    exact ⟨by simp, fun _ _ => rfl⟩
  | succ n ih =>
    intro m m' hex
    rw [List.range_succ, List.flatMap_append] at hex
    simp only [List.flatMap_cons, List.flatMap_nil, List.append_nil] at hex
    obtain ⟨m1, e1, e2⟩ := hex.app
    obtain ⟨a1, a2⟩ := ih (fun b hb => h b (by omega)) e1
    obtain ⟨b1, b2⟩ := h n (by omega) m1 m' e2
    constructor
    · intro b hb j hj
      by_cases hbn : b = n
      · subst hbn; exact b1 j hj
      · have : (b + 1) * S ≤ n * S := Nat.mul_le_mul_right _ (by omega)
        rw [Nat.add_mul] at this
        rw [b2 _ (by omega)]
        exact a1 b (by omega) j hj
    · intro x hx
      rw [Nat.add_mul] at hx
      rw [b2 x (by omega), a2 x (by omega)]

end

end Verif.Kern
