import Verif.Vl.Pos
import Mathlib.Algebra.BigOperators.Ring.Finset
/-
C116, C117: rotary position embedding on the CPU.
Sources: mllm/backends/cpu/ops/RoPEOp.cpp, MultimodalRoPEOp.cpp, VisionRoPEOp.cpp, mllm/core/aops/RoPEOp.cpp,
mllm/models/qwen3/modeling_qwen3.hpp L15-70 (`makeRotaryPosEmbedding`; the other text models hold the same code).

Assumptions: exact arithmetic (the half-precision path rounds); the sine and cosine tables do not share storage with
the output; `int` arithmetic does not overflow.
-/
namespace Verif.Vl
variable {R : Type}

/-! ### Loads and stores -/

/-- One iteration of an inner loop: the addresses it stores to and the values, computed from memory as it was before
the iteration (the loads come before the stores). `reads` bounds what the values depend on. -/
structure Iter (R : Type) where
  reads : Int → Prop
  stores : List (Int × ((Int → R) → R))

/-- Memory after one iteration. -/
def Iter.run (s : Iter R) (mem : Int → R) : Int → R := fun a =>
  match buf s.stores a with
  | some f => f mem
  | none => mem a

/-- Memory after a sequence of iterations. -/
def runAll : List (Iter R) → (Int → R) → (Int → R)
  | [], mem => mem
  | s :: ss, mem => runAll ss (s.run mem)

/-- Lane `d` of the rotation: RoPEOp.cpp L66-74 and the lanes of the vector loop L146-160. `a`, `o`: addresses of
element 0 of the row in the activation and in the output. -/
def rotLane [Ring R] (a o : Int) (half : Nat) (sn cs : Nat → R) (d : Nat) : List (Int × ((Int → R) → R)) :=
  [(o + d, fun m => m (a + d) * cs d - m (a + (d + half : Nat)) * sn d),
   (o + (d + half : Nat), fun m => m (a + d) * sn d + m (a + (d + half : Nat)) * cs d)]

/-- One iteration of the rotation loop over `k` lanes from `d` (`k = 1`: the scalar loop). -/
def rotIter [Ring R] (a o : Int) (half : Nat) (sn cs : Nat → R) (p : Nat × Nat) : Iter R where
  reads := fun x => ∃ e, p.1 ≤ e ∧ e < p.1 + p.2 ∧ (x = a + e ∨ x = a + (e + half : Nat))
  stores := (List.range p.2).flatMap fun l => rotLane a o half sn cs (p.1 + l)

/-- One iteration of the copy loop for the dimensions that are not rotated, RoPEOp.cpp L81-92, L175-190. -/
def copyIter (a o : Int) (p : Nat × Nat) : Iter R where
  reads := fun x => ∃ e, p.1 ≤ e ∧ e < p.1 + p.2 ∧ x = a + (e : Nat)
  stores := (List.range p.2).map fun l => (o + (p.1 + l : Nat), fun m => m (a + (p.1 + l : Nat)))

/-- `for (d = lo; d <= hi - step; d += step) …; for (; d < hi; ++d) …` as (start, width) pairs. The x86 code has only the
scalar loop (`step = 1`); ARM: 4 lanes for float, 8 for half. -/
def chunks (step lo hi : Nat) : List (Nat × Nat) :=
  (List.range ((hi - lo) / step)).map (fun i => (lo + i * step, step)) ++
    (List.range ((hi - lo) % step)).map (fun i => (lo + (hi - lo) / step * step + i, 1))

inductive Layout | bhsd | bshd
  deriving DecidableEq

/-- The order in which the loops visit the rows `(n, h, s)`. -/
def rows : Layout → Nat → Nat → Nat → List (Nat × Nat × Nat)
  | .bhsd, B, H, S => (List.range B).flatMap fun n => (List.range H).flatMap fun h => (List.range S).map fun s => (n, h, s)
  | .bshd, B, H, S => (List.range B).flatMap fun n => (List.range S).flatMap fun s => (List.range H).map fun h => (n, h, s)

/-- The index of element `d` of row `(n, h, s)`. -/
def Layout.idx : Layout → Nat × Nat × Nat → Nat → List Nat
  | .bhsd, (n, h, s), d => [n, h, s, d]
  | .bshd, (n, h, s), d => [n, s, h, d]

/-- A tensor as the kernel sees it: offset and strides. -/
structure View where
  off : Int
  stride : List Int

/-- `offsettedPtr`, mllm/core/TensorViewImpl.hpp L80-88. -/
def View.addr (v : View) (i : List Nat) : Int := v.off + Verif.Tensor.dot i v.stride

/-- `RoPEOpImpl::forward`, RoPEOp.cpp L17-355. `partialDim = none` is `-1`. `sn n s d`, `cs n s d`: what
`sin.offsettedPtr({n, s, 0})[d]` reads. -/
def ropeForward [Ring R] (step : Nat) (lay : Layout) (B H S D : Nat) (partialDim : Option Nat) (act out : View)
    (sn cs : Nat → Nat → Nat → R) : List (Iter R) :=
  let half := match partialDim with | some p => p / 2 | none => D / 2
  ((rows lay B H S).flatMap fun r => (chunks step 0 half).map
    (rotIter (act.addr (lay.idx r 0)) (out.addr (lay.idx r 0)) half (sn r.1 r.2.2) (cs r.1 r.2.2))) ++
  ((rows lay B H S).flatMap fun r => (chunks step (half * 2) D).map
    (copyIter (act.addr (lay.idx r 0)) (out.addr (lay.idx r 0))))

/-- `Qwen2VLMultimodalRoPEOpImpl::forward` (ARM), MultimodalRoPEOp.cpp L17-260: the table has no batch dimension and
nothing is copied. On x86 the operator ends the process. `Qwen2VLVisionRoPEOpImpl` (VisionRoPEOp.cpp L18-137) is the
same for a row-major `[B, S, H, D]` activation, with the table `[S, D/2]`. -/
def mropeForward [Ring R] (step : Nat) (lay : Layout) (B H S D : Nat) (act out : View) (sn cs : Nat → Nat → R) :
    List (Iter R) :=
  (rows lay B H S).flatMap fun r => (chunks step 0 (D / 2)).map
    (rotIter (act.addr (lay.idx r 0)) (out.addr (lay.idx r 0)) (D / 2) (sn r.2.2) (cs r.2.2))

/-! ### Specification -/

/-- Element `d` of the rotated row `x`: the pairs `(x d, x (d + half))` are turned by the angle of frequency `d`; the
rest is unchanged. -/
def rotated [Ring R] (half : Nat) (sn cs : Nat → R) (x : Nat → R) (d : Nat) : R :=
  if d < half then x d * cs d - x (d + half) * sn d
  else if d < half * 2 then x (d - half) * sn (d - half) + x d * cs (d - half)
  else x d

/-- Valid row. -/
def RowIn (B H S : Nat) (r : Nat × Nat × Nat) : Prop := r.1 < B ∧ r.2.1 < H ∧ r.2.2 < S

/-- The layout conditions the kernel relies on: the last dimension is dense, different elements of the output have
different addresses, and the output is either the activation itself (in place) or separate storage. -/
structure Fits (lay : Layout) (B H S D : Nat) (act out : View) : Prop where
  actDense : ∀ r d, RowIn B H S r → d < D → act.addr (lay.idx r d) = act.addr (lay.idx r 0) + d
  outDense : ∀ r d, RowIn B H S r → d < D → out.addr (lay.idx r d) = out.addr (lay.idx r 0) + d
  inj : ∀ r r' d d', RowIn B H S r → RowIn B H S r' → d < D → d' < D →
    out.addr (lay.idx r d) = out.addr (lay.idx r' d') → r = r' ∧ d = d'
  apart : act = out ∨ ∀ r r' d d', RowIn B H S r → RowIn B H S r' → d < D → d' < D →
    out.addr (lay.idx r d) ≠ act.addr (lay.idx r' d')

/-! ### Lemmas -/

/-- The addresses an iteration stores to. -/
def Iter.writes (s : Iter R) (a : Int) : Prop := ∃ f, (a, f) ∈ s.stores

/-- The values depend on nothing but `reads`. -/
def Iter.Local (s : Iter R) : Prop :=
  ∀ e ∈ s.stores, ∀ m m' : Int → R, (∀ a, s.reads a → m a = m' a) → e.2 m = e.2 m'

theorem Iter.run_of_not {s : Iter R} {mem : Int → R} {a : Int} (h : ¬ s.writes a) : s.run mem a = mem a := by
  unfold Iter.run
  rw [buf_none]
  rintro ⟨b, f⟩ he hb
  exact h ⟨f, by simp only at hb; rwa [← hb]⟩

theorem runAll_of_not : ∀ {ss : List (Iter R)} {mem : Int → R} {a : Int}, (∀ s ∈ ss, ¬ s.writes a) →
    runAll ss mem a = mem a
  | [], _, _, _ => rfl
  | s :: ss, mem, a, h => by
    unfold runAll
    rw [runAll_of_not fun t ht => h t (.tail _ ht), Iter.run_of_not (h s (.head _))]

/-- Iterations that do not touch each other's data can be looked at one by one. -/
theorem runAll_at : ∀ {ss : List (Iter R)} (_ : ∀ s ∈ ss, s.Local)
    (_ : ss.Pairwise fun (s t : Iter R) => ∀ a, s.writes a → ¬ t.reads a ∧ ¬ t.writes a) {s : Iter R} (_ : s ∈ ss) {a : Int}
    {f : (Int → R) → R} (_ : buf s.stores a = some f) (mem : Int → R), runAll ss mem a = f mem
  | t :: ss, hl, hp, s, hs, a, f, hf, mem => by
    rw [List.pairwise_cons] at hp
    have hw : s.writes a ∧ (a, f) ∈ s.stores := by
      have : (a, f) ∈ s.stores := by
        unfold buf at hf
        cases hg : (s.stores.filter fun e => e.1 == a).getLast? with
        | none => rw [hg] at hf; cases hf
        | some e =>
          rw [hg] at hf
          simp only [Option.map_some, Option.some.injEq] at hf
          have hm := List.mem_filter.mp (List.mem_of_getLast? hg)
          have h1 : e.1 = a := by simpa using hm.2
          rw [← h1, ← hf]; exact hm.1
      exact ⟨⟨f, this⟩, this⟩
    unfold runAll
    rcases List.mem_cons.mp hs with rfl | hs
    · rw [runAll_of_not fun u hu => (hp.1 u hu a hw.1).2]
      unfold Iter.run
      rw [hf]
    · rw [runAll_at (fun u hu => hl u (.tail _ hu)) hp.2 hs hf]
      refine hl s (.tail _ hs) (a, f) hw.2 _ _ ?_
      intro b hb
      refine Iter.run_of_not fun hwb => ?_
      exact (hp.1 s hs b hwb).1 hb

theorem mem_rows {lay : Layout} {B H S : Nat} {r : Nat × Nat × Nat} : r ∈ rows lay B H S ↔ RowIn B H S r := by
  obtain ⟨n, h, s⟩ := r
  cases lay <;> simp only [rows, RowIn, List.mem_flatMap, List.mem_map, List.mem_range, Prod.mk.injEq]
  · constructor
    · rintro ⟨a, h1, b, h2, c, h3, rfl, rfl, rfl⟩; exact ⟨h1, h2, h3⟩
    · rintro ⟨h1, h2, h3⟩; exact ⟨n, h1, h, h2, s, h3, rfl, rfl, rfl⟩
  · constructor
    · rintro ⟨a, h1, b, h2, c, h3, rfl, rfl, rfl⟩; exact ⟨h1, h3, h2⟩
    · rintro ⟨h1, h2, h3⟩; exact ⟨n, h1, s, h3, h, h2, rfl, rfl, rfl⟩

theorem rows_nodup (lay : Layout) (B H S : Nat) : (rows lay B H S).Nodup := by
  have key : ∀ {ι κ : Type} {l : List ι} {f : ι → List κ} (key : κ → ι), l.Nodup →
      (∀ a ∈ l, (f a).Nodup) → (∀ a ∈ l, ∀ x ∈ f a, key x = a) → (l.flatMap f).Nodup := by
    intro ι κ l f key hl h1 h2
    rw [List.nodup_flatMap]
    refine ⟨h1, List.Pairwise.imp_of_mem ?_ hl⟩
    intro a b ha hb hne
    rw [Function.onFun, List.disjoint_left]
    intro x hx hx'
    exact hne ((h2 a ha x hx).symm.trans (h2 b hb x hx'))
  cases lay
  · refine key (fun x => x.1) List.nodup_range ?_ ?_
    · intro n _
      refine key (fun x => x.2.1) List.nodup_range ?_ ?_
      · intro h _
        refine List.Nodup.map ?_ List.nodup_range
        intro a b he; simpa using he
      · intro h _ x hx
        obtain ⟨s, -, rfl⟩ := List.mem_map.mp hx; rfl
    · intro n _ x hx
      obtain ⟨h, -, hx⟩ := List.mem_flatMap.mp hx
      obtain ⟨s, -, rfl⟩ := List.mem_map.mp hx; rfl
  · refine key (fun x => x.1) List.nodup_range ?_ ?_
    · intro n _
      refine key (fun x => x.2.2) List.nodup_range ?_ ?_
      · intro h _
        refine List.Nodup.map ?_ List.nodup_range
        intro a b he; simpa using he
      · intro h _ x hx
        obtain ⟨s, -, rfl⟩ := List.mem_map.mp hx; rfl
    · intro n _ x hx
      obtain ⟨h, -, hx⟩ := List.mem_flatMap.mp hx
      obtain ⟨s, -, rfl⟩ := List.mem_map.mp hx; rfl

theorem chunks_bound {step lo hi : Nat} {p : Nat × Nat} (h : p ∈ chunks step lo hi) :
    lo ≤ p.1 ∧ p.1 + p.2 ≤ max lo hi := by
  unfold chunks at h
  rcases List.mem_append.mp h with h | h
  · obtain ⟨i, hi', rfl⟩ := List.mem_map.mp h
    rw [List.mem_range] at hi'
    have h1 : (i + 1) * step ≤ (hi - lo) / step * step := Nat.mul_le_mul_right _ hi'
    have h2 := Nat.div_mul_le_self (hi - lo) step
    rw [Nat.add_mul] at h1
    simp only
    omega
  · obtain ⟨i, hi', rfl⟩ := List.mem_map.mp h
    rw [List.mem_range] at hi'
    have h2 := Nat.div_add_mod (hi - lo) step
    rw [Nat.mul_comm] at h2
    simp only
    omega

theorem chunks_pairwise (step lo hi : Nat) : (chunks step lo hi).Pairwise fun p q => p.1 + p.2 ≤ q.1 := by
  unfold chunks
  rw [List.pairwise_append]
  refine ⟨?_, ?_, ?_⟩
  · rw [List.pairwise_map]
    refine List.Pairwise.imp ?_ List.pairwise_lt_range
    intro i j hij
    have : (i + 1) * step ≤ j * step := Nat.mul_le_mul_right _ hij
    rw [Nat.add_mul] at this
    simp only
    omega
  · rw [List.pairwise_map]
    refine List.Pairwise.imp ?_ List.pairwise_lt_range
    intro i j hij
    simp only
    omega
  · intro p hp q hq
    obtain ⟨i, hi', rfl⟩ := List.mem_map.mp hp
    obtain ⟨j, hj', rfl⟩ := List.mem_map.mp hq
    rw [List.mem_range] at hi'
    have h1 : (i + 1) * step ≤ (hi - lo) / step * step := Nat.mul_le_mul_right _ hi'
    rw [Nat.add_mul] at h1
    simp only
    omega

theorem chunks_cover {step lo hi d : Nat} (hs : 0 < step) (h1 : lo ≤ d) (h2 : d < hi) :
    ∃ p ∈ chunks step lo hi, p.1 ≤ d ∧ d < p.1 + p.2 := by
  unfold chunks
  have hdm := Nat.div_add_mod (hi - lo) step
  rw [Nat.mul_comm] at hdm
  rcases Nat.lt_or_ge (d - lo) ((hi - lo) / step * step) with h | h
  · refine ⟨(lo + (d - lo) / step * step, step), List.mem_append_left _ (List.mem_map.mpr ⟨(d - lo) / step, ?_, rfl⟩), ?_, ?_⟩
    · rw [List.mem_range]
      exact (Nat.div_lt_iff_lt_mul hs).mpr h
    · have := Nat.div_mul_le_self (d - lo) step
      simp only; omega
    · have h3 := Nat.div_add_mod (d - lo) step
      have h4 := Nat.mod_lt (d - lo) hs
      rw [Nat.mul_comm] at h3
      simp only; omega
  · exact ⟨(lo + (hi - lo) / step * step + (d - lo - (hi - lo) / step * step), 1),
      List.mem_append_right _ (List.mem_map.mpr ⟨d - lo - (hi - lo) / step * step, by rw [List.mem_range]; omega, rfl⟩),
      by simp only; omega, by simp only; omega⟩

theorem mem_rotIter [Ring R] {a o : Int} {half : Nat} {sn cs : Nat → R} {p : Nat × Nat} {e : Int × ((Int → R) → R)} :
    e ∈ (rotIter a o half sn cs p).stores ↔ ∃ d, p.1 ≤ d ∧ d < p.1 + p.2 ∧ e ∈ rotLane a o half sn cs d := by
  simp only [rotIter, List.mem_flatMap, List.mem_range]
  constructor
  · rintro ⟨l, hl, he⟩; exact ⟨p.1 + l, by omega, by omega, he⟩
  · rintro ⟨d, h1, h2, he⟩
    exact ⟨d - p.1, by omega, by rwa [show p.1 + (d - p.1) = d by omega]⟩

theorem mem_copyIter {a o : Int} {p : Nat × Nat} {e : Int × ((Int → R) → R)} :
    e ∈ (copyIter a o p).stores ↔ ∃ d : Nat, p.1 ≤ d ∧ d < p.1 + p.2 ∧ e = (o + (d : Nat), fun m => m (a + (d : Nat))) := by
  simp only [copyIter, List.mem_map, List.mem_range]
  constructor
  · rintro ⟨l, hl, rfl⟩; exact ⟨p.1 + l, by omega, by omega, rfl⟩
  · rintro ⟨d, h1, h2, rfl⟩
    exact ⟨d - p.1, by omega, by rw [show p.1 + (d - p.1) = d by omega]⟩

theorem rotIter_local [Ring R] (a o : Int) (half : Nat) (sn cs : Nat → R) (p : Nat × Nat) :
    (rotIter a o half sn cs p).Local := by
  intro e he m m' hm
  obtain ⟨d, h1, h2, he⟩ := mem_rotIter.mp he
  have e1 := hm (a + d) ⟨d, h1, h2, .inl rfl⟩
  have e2 := hm (a + (d + half : Nat)) ⟨d, h1, h2, .inr rfl⟩
  simp only [rotLane, List.mem_cons, List.not_mem_nil, or_false] at he
  rcases he with rfl | rfl <;> simp only [e1, e2]

theorem copyIter_local (a o : Int) (p : Nat × Nat) : (copyIter (R := R) a o p).Local := by
  intro e he m m' hm
  obtain ⟨d, h1, h2, rfl⟩ := mem_copyIter.mp he
  exact hm (a + (d : Nat)) ⟨d, h1, h2, rfl⟩

theorem rotIter_writes [Ring R] {a o : Int} {half : Nat} {sn cs : Nat → R} {p : Nat × Nat} {x : Int}
    (h : (rotIter a o half sn cs p).writes x) :
    ∃ e, p.1 ≤ e ∧ e < p.1 + p.2 ∧ (x = o + (e : Nat) ∨ x = o + (e + half : Nat)) := by
  obtain ⟨f, hf⟩ := h
  obtain ⟨d, h1, h2, he⟩ := mem_rotIter.mp hf
  simp only [rotLane, List.mem_cons, List.not_mem_nil, or_false, Prod.mk.injEq] at he
  rcases he with ⟨h3, -⟩ | ⟨h3, -⟩
  · exact ⟨d, h1, h2, .inl h3⟩
  · exact ⟨d, h1, h2, .inr h3⟩

theorem copyIter_writes {a o : Int} {p : Nat × Nat} {x : Int} (h : (copyIter (R := R) a o p).writes x) :
    ∃ e, p.1 ≤ e ∧ e < p.1 + p.2 ∧ x = o + (e : Nat) := by
  obtain ⟨f, hf⟩ := h
  obtain ⟨d, h1, h2, he⟩ := mem_copyIter.mp hf
  simp only [Prod.mk.injEq] at he
  exact ⟨d, h1, h2, he.1⟩

/-- The iteration works on the elements `e` with `E e` of row `r`. -/
def On (lay : Layout) (D : Nat) (act out : View) (s : Iter R) (r : Nat × Nat × Nat) (E : Nat → Prop) : Prop :=
  (∀ x, s.reads x → ∃ e, E e ∧ e < D ∧ x = act.addr (lay.idx r 0) + (e : Nat)) ∧
  (∀ x, s.writes x → ∃ e, E e ∧ e < D ∧ x = out.addr (lay.idx r 0) + (e : Nat))

theorem no_conflict {lay : Layout} {B H S D : Nat} {act out : View} (hf : Fits lay B H S D act out) {s t : Iter R}
    {r r' : Nat × Nat × Nat} {E E' : Nat → Prop} (hr : RowIn B H S r) (hr' : RowIn B H S r')
    (hs : On lay D act out s r E) (ht : On lay D act out t r' E') (hd : r ≠ r' ∨ ∀ e, E e → ¬ E' e) :
    ∀ a, s.writes a → ¬ t.reads a ∧ ¬ t.writes a := by
  intro a ha
  obtain ⟨e, he, hD, rfl⟩ := hs.2 a ha
  rw [← hf.outDense r e hr hD]
  have same : ∀ e', E' e' → e' < D → out.addr (lay.idx r e) = out.addr (lay.idx r' e') → False := by
    intro e' he' hD' heq
    obtain ⟨h1, h2⟩ := hf.inj r r' e e' hr hr' hD hD' heq
    subst h2
    rcases hd with h | h
    · exact h h1
    · exact h e he he'
  constructor
  · intro hx
    obtain ⟨e', he', hD', heq⟩ := ht.1 _ hx
    rw [← hf.actDense r' e' hr' hD'] at heq
    rcases hf.apart with hp | hp
    · rw [hp] at heq; exact same e' he' hD' heq
    · exact hp r r' e e' hr hr' hD hD' heq
  · intro hx
    obtain ⟨e', he', hD', heq⟩ := ht.2 _ hx
    rw [← hf.outDense r' e' hr' hD'] at heq
    exact same e' he' hD' heq

theorem rotIter_on [Ring R] (lay : Layout) {D half : Nat} (act out : View) (sn cs : Nat → R) (r : Nat × Nat × Nat) {p : Nat × Nat}
    (hp : p.1 + p.2 ≤ half) (hD : half * 2 ≤ D) :
    On lay D act out (rotIter (act.addr (lay.idx r 0)) (out.addr (lay.idx r 0)) half sn cs p) r
      (fun e => (p.1 ≤ e ∧ e < p.1 + p.2) ∨ (p.1 + half ≤ e ∧ e < p.1 + p.2 + half)) := by
  constructor
  · rintro x ⟨e, h1, h2, h3 | h3⟩
    · exact ⟨e, .inl ⟨h1, h2⟩, by omega, h3⟩
    · exact ⟨e + half, .inr ⟨by omega, by omega⟩, by omega, h3⟩
  · intro x hx
    obtain ⟨e, h1, h2, h3 | h3⟩ := rotIter_writes hx
    · exact ⟨e, .inl ⟨h1, h2⟩, by omega, h3⟩
    · exact ⟨e + half, .inr ⟨by omega, by omega⟩, by omega, h3⟩

theorem copyIter_on (lay : Layout) {D : Nat} (act out : View) (r : Nat × Nat × Nat) {p : Nat × Nat} (hD : p.1 + p.2 ≤ D) :
    On lay D act out (copyIter (R := R) (act.addr (lay.idx r 0)) (out.addr (lay.idx r 0)) p) r
      (fun e => p.1 ≤ e ∧ e < p.1 + p.2) := by
  constructor
  · rintro x ⟨e, h1, h2, h3⟩
    exact ⟨e, ⟨h1, h2⟩, by omega, h3⟩
  · intro x hx
    obtain ⟨e, h1, h2, h3⟩ := copyIter_writes hx
    exact ⟨e, ⟨h1, h2⟩, by omega, h3⟩

theorem rot_value [Ring R] {a o : Int} {half : Nat} {sn cs : Nat → R} {p : Nat × Nat} {d : Nat} (hp : p.1 + p.2 ≤ half)
    (h1 : p.1 ≤ d) (h2 : d < p.1 + p.2) :
    (buf (rotIter a o half sn cs p).stores (o + d) = some (fun m => m (a + d) * cs d - m (a + (d + half : Nat)) * sn d)) ∧
    (buf (rotIter a o half sn cs p).stores (o + (d + half : Nat)) =
      some (fun m => m (a + d) * sn d + m (a + (d + half : Nat)) * cs d)) := by
  constructor
  · apply buf_eq
    · exact mem_rotIter.mpr ⟨d, h1, h2, .head _⟩
    · intro e he hk
      obtain ⟨d', h3, h4, he⟩ := mem_rotIter.mp he
      simp only [rotLane, List.mem_cons, List.not_mem_nil, or_false] at he
      rcases he with rfl | rfl
      · have : d' = d := by simp only at hk; omega
        subst this; rfl
      · simp only at hk; omega
  · apply buf_eq
    · exact mem_rotIter.mpr ⟨d, h1, h2, .tail _ (.head _)⟩
    · intro e he hk
      obtain ⟨d', h3, h4, he⟩ := mem_rotIter.mp he
      simp only [rotLane, List.mem_cons, List.not_mem_nil, or_false] at he
      rcases he with rfl | rfl
      · simp only at hk; omega
      · have : d' = d := by simp only at hk; omega
        subst this; rfl

theorem copy_value {a o : Int} {p : Nat × Nat} {d : Nat} (h1 : p.1 ≤ d) (h2 : d < p.1 + p.2) :
    buf (copyIter (R := R) a o p).stores (o + (d : Nat)) = some (fun m => m (a + (d : Nat))) := by
  apply buf_eq
  · exact mem_copyIter.mpr ⟨d, h1, h2, rfl⟩
  · intro e he hk
    obtain ⟨d', h3, h4, rfl⟩ := mem_copyIter.mp he
    have : d' = d := by simp only at hk; omega
    subst this; rfl

/-- The rotation part: pairwise independence. -/
theorem rot_pairwise [Ring R] {lay : Layout} {B H S D : Nat} {act out : View} (hf : Fits lay B H S D act out) (step half : Nat)
    (hD : half * 2 ≤ D) (sn cs : Nat × Nat × Nat → Nat → R) :
    ((rows lay B H S).flatMap fun r => (chunks step 0 half).map
      (rotIter (act.addr (lay.idx r 0)) (out.addr (lay.idx r 0)) half (sn r) (cs r))).Pairwise
      fun (s t : Iter R) => ∀ a, s.writes a → ¬ t.reads a ∧ ¬ t.writes a := by
  have hb : ∀ p ∈ chunks step 0 half, p.1 + p.2 ≤ half := fun p hp => by
    have := (chunks_bound hp).2; omega
  rw [List.pairwise_flatMap]
  constructor
  · intro r hr
    rw [List.pairwise_map]
    refine List.Pairwise.imp_of_mem ?_ (chunks_pairwise step 0 half)
    intro p q hp hq hpq
    have hr' := mem_rows.mp hr
    have h1 := hb p hp
    have h2 := hb q hq
    refine no_conflict hf hr' hr' (rotIter_on lay act out _ _ r h1 hD) (rotIter_on lay act out _ _ r h2 hD) (.inr ?_)
    intro e he he'
    omega
  · refine List.Pairwise.imp_of_mem ?_ (rows_nodup lay B H S)
    intro r r' hr hr' hne x hx y hy
    obtain ⟨p, hp, rfl⟩ := List.mem_map.mp hx
    obtain ⟨q, hq, rfl⟩ := List.mem_map.mp hy
    exact no_conflict hf (mem_rows.mp hr) (mem_rows.mp hr') (rotIter_on lay act out _ _ r (hb p hp) hD)
      (rotIter_on lay act out _ _ r' (hb q hq) hD) (.inl hne)

/-- What the rotation part leaves at the rotated elements, whatever else runs independently after it. -/
theorem rot_elems [Ring R] {lay : Layout} {B H S D : Nat} {act out : View} (hf : Fits lay B H S D act out) {step half : Nat}
    (hs : 0 < step) (hD : half * 2 ≤ D) (sn cs : Nat × Nat × Nat → Nat → R) (rest : List (Iter R))
    (hl : ∀ s ∈ rest, s.Local)
    (hp : (((rows lay B H S).flatMap fun r => (chunks step 0 half).map
      (rotIter (act.addr (lay.idx r 0)) (out.addr (lay.idx r 0)) half (sn r) (cs r))) ++ rest).Pairwise
      fun (s t : Iter R) => ∀ a, s.writes a → ¬ t.reads a ∧ ¬ t.writes a)
    (mem : Int → R) (r : Nat × Nat × Nat) (hr : RowIn B H S r) (d : Nat) (hd : d < half * 2) :
    runAll (((rows lay B H S).flatMap fun r => (chunks step 0 half).map
      (rotIter (act.addr (lay.idx r 0)) (out.addr (lay.idx r 0)) half (sn r) (cs r))) ++ rest) mem (out.addr (lay.idx r d)) =
      rotated half (sn r) (cs r) (fun e => mem (act.addr (lay.idx r e))) d := by
  have hloc : ∀ s ∈ (((rows lay B H S).flatMap fun r => (chunks step 0 half).map
      (rotIter (act.addr (lay.idx r 0)) (out.addr (lay.idx r 0)) half (sn r) (cs r))) ++ rest), s.Local := by
    intro s hs
    rcases List.mem_append.mp hs with hs | hs
    · obtain ⟨r, -, hs⟩ := List.mem_flatMap.mp hs
      obtain ⟨p, -, rfl⟩ := List.mem_map.mp hs
      exact rotIter_local _ _ _ _ _ _
    · exact hl s hs
  have mem_it : ∀ p ∈ chunks step 0 half, rotIter (R := R) (act.addr (lay.idx r 0)) (out.addr (lay.idx r 0)) half (sn r) (cs r) p ∈
      (((rows lay B H S).flatMap fun r => (chunks step 0 half).map
      (rotIter (R := R) (act.addr (lay.idx r 0)) (out.addr (lay.idx r 0)) half (sn r) (cs r))) ++ rest) := fun p hp =>
    List.mem_append_left _ (List.mem_flatMap.mpr ⟨r, mem_rows.mpr hr, List.mem_map.mpr ⟨p, hp, rfl⟩⟩)
  have hb : ∀ p ∈ chunks step 0 half, p.1 + p.2 ≤ half := fun p hp => by
    have := (chunks_bound hp).2; omega
  rw [hf.outDense r d hr (by omega)]
  unfold rotated
  split_ifs with h1
  · obtain ⟨p, hpm, c1, c2⟩ := chunks_cover hs (Nat.zero_le d) h1
    rw [runAll_at hloc hp (mem_it p hpm) (rot_value (hb p hpm) c1 c2).1]
    beta_reduce
    rw [hf.actDense r d hr (by omega), hf.actDense r (d + half) hr (by omega)]
  · obtain ⟨p, hpm, c1, c2⟩ := chunks_cover hs (Nat.zero_le (d - half)) (show d - half < half by omega)
    have hv := (rot_value (a := act.addr (lay.idx r 0)) (o := out.addr (lay.idx r 0)) (sn := sn r) (cs := cs r) (hb p hpm) c1 c2).2
    rw [show d - half + half = d by omega] at hv
    rw [runAll_at hloc hp (mem_it p hpm) hv]
    beta_reduce
    rw [hf.actDense r d hr (by omega), hf.actDense r (d - half) hr (by omega)]

/-- C116. `RoPE` on the CPU, both layouts, every vector width, in place or into a fresh tensor, whole or partial
rotation (`partialDim ≤ D`): every element of the output is the rotated element of its own row, with the sines and
cosines of its own batch row and sequence position; nothing outside the output is written. -/
theorem C116_rope_partial [Ring R] (step : Nat) (hs : 0 < step) (lay : Layout) (B H S D : Nat) (pd : Option Nat)
    (hpd : ∀ p, pd = some p → p ≤ D) (act out : View) (hf : Fits lay B H S D act out) (sn cs : Nat → Nat → Nat → R)
    (mem : Int → R) :
    (∀ n h s d, n < B → h < H → s < S → d < D →
      runAll (ropeForward step lay B H S D pd act out sn cs) mem (out.addr (lay.idx (n, h, s) d)) =
        rotated ((pd.getD D) / 2) (sn n s) (cs n s) (fun e => mem (act.addr (lay.idx (n, h, s) e))) d) ∧
    (∀ a, (∀ n h s d, n < B → h < H → s < S → d < D → a ≠ out.addr (lay.idx (n, h, s) d)) →
      runAll (ropeForward step lay B H S D pd act out sn cs) mem a = mem a) := by
  have hfwd : ropeForward step lay B H S D pd act out sn cs =
      ((rows lay B H S).flatMap fun r => (chunks step 0 ((pd.getD D) / 2)).map
        (rotIter (act.addr (lay.idx r 0)) (out.addr (lay.idx r 0)) ((pd.getD D) / 2) (sn r.1 r.2.2) (cs r.1 r.2.2))) ++
      ((rows lay B H S).flatMap fun r => (chunks step ((pd.getD D) / 2 * 2) D).map
        (copyIter (act.addr (lay.idx r 0)) (out.addr (lay.idx r 0)))) := by cases pd <;> rfl
  rw [hfwd]
  clear hfwd
  have hD : (pd.getD D) / 2 * 2 ≤ D := by
    have : pd.getD D ≤ D := by
      cases pd with
      | none => simp
      | some p => simpa using hpd p rfl
    omega
  generalize (pd.getD D) / 2 = half at *
  have hbc : ∀ p ∈ chunks step (half * 2) D, half * 2 ≤ p.1 ∧ p.1 + p.2 ≤ D := fun p hp => by
    have := chunks_bound hp; omega
  have hbr : ∀ p ∈ chunks step 0 half, p.1 + p.2 ≤ half := fun p hp => by
    have := (chunks_bound hp).2; omega
  have hpair : (((rows lay B H S).flatMap fun r => (chunks step 0 half).map
      (rotIter (act.addr (lay.idx r 0)) (out.addr (lay.idx r 0)) half (sn r.1 r.2.2) (cs r.1 r.2.2))) ++
      ((rows lay B H S).flatMap fun r => (chunks step (half * 2) D).map
        (copyIter (act.addr (lay.idx r 0)) (out.addr (lay.idx r 0))))).Pairwise
      fun (s t : Iter R) => ∀ a, s.writes a → ¬ t.reads a ∧ ¬ t.writes a := by
    rw [List.pairwise_append]
    refine ⟨rot_pairwise hf step half hD (fun r => sn r.1 r.2.2) (fun r => cs r.1 r.2.2), ?_, ?_⟩
    · rw [List.pairwise_flatMap]
      constructor
      · intro r hr
        rw [List.pairwise_map]
        refine List.Pairwise.imp_of_mem ?_ (chunks_pairwise step (half * 2) D)
        intro p q hp hq hpq
        exact no_conflict hf (mem_rows.mp hr) (mem_rows.mp hr) (copyIter_on lay act out r (hbc p hp).2)
          (copyIter_on lay act out r (hbc q hq).2) (.inr fun e he he' => by omega)
      · refine List.Pairwise.imp_of_mem ?_ (rows_nodup lay B H S)
        intro r r' hr hr' hne x hx y hy
        obtain ⟨p, hp, rfl⟩ := List.mem_map.mp hx
        obtain ⟨q, hq, rfl⟩ := List.mem_map.mp hy
        exact no_conflict hf (mem_rows.mp hr) (mem_rows.mp hr') (copyIter_on lay act out r (hbc p hp).2)
          (copyIter_on lay act out r' (hbc q hq).2) (.inl hne)
    · intro x hx y hy
      obtain ⟨r, hr, hx⟩ := List.mem_flatMap.mp hx
      obtain ⟨p, hp, rfl⟩ := List.mem_map.mp hx
      obtain ⟨r', hr', hy⟩ := List.mem_flatMap.mp hy
      obtain ⟨q, hq, rfl⟩ := List.mem_map.mp hy
      have h1 := hbr p hp
      have h2 := hbc q hq
      exact no_conflict hf (mem_rows.mp hr) (mem_rows.mp hr') (rotIter_on lay act out _ _ r h1 hD)
        (copyIter_on lay act out r' h2.2) (.inr fun e he he' => by omega)
  have hlc : ∀ s ∈ ((rows lay B H S).flatMap fun r => (chunks step (half * 2) D).map
        (copyIter (R := R) (act.addr (lay.idx r 0)) (out.addr (lay.idx r 0)))), s.Local := by
    intro s hs
    obtain ⟨r, -, hs⟩ := List.mem_flatMap.mp hs
    obtain ⟨p, -, rfl⟩ := List.mem_map.mp hs
    exact copyIter_local _ _ _
  constructor
  · intro n h s d hn hh hs' hd
    have hr : RowIn B H S (n, h, s) := ⟨hn, hh, hs'⟩
    rcases Nat.lt_or_ge d (half * 2) with h1 | h1
    · exact rot_elems hf hs hD (fun r => sn r.1 r.2.2) (fun r => cs r.1 r.2.2) _ hlc hpair mem (n, h, s) hr d h1
    · obtain ⟨p, hpm, c1, c2⟩ := chunks_cover hs h1 hd
      have hloc : ∀ s ∈ (((rows lay B H S).flatMap fun r => (chunks step 0 half).map
          (rotIter (act.addr (lay.idx r 0)) (out.addr (lay.idx r 0)) half (sn r.1 r.2.2) (cs r.1 r.2.2))) ++
          ((rows lay B H S).flatMap fun r => (chunks step (half * 2) D).map
            (copyIter (act.addr (lay.idx r 0)) (out.addr (lay.idx r 0))))), s.Local := by
        intro s hs
        rcases List.mem_append.mp hs with hs | hs
        · obtain ⟨r, -, hs⟩ := List.mem_flatMap.mp hs
          obtain ⟨p, -, rfl⟩ := List.mem_map.mp hs
          exact rotIter_local _ _ _ _ _ _
        · exact hlc s hs
      rw [hf.outDense (n, h, s) d hr hd, runAll_at hloc hpair
        (List.mem_append_right _ (List.mem_flatMap.mpr ⟨(n, h, s), mem_rows.mpr hr, List.mem_map.mpr ⟨p, hpm, rfl⟩⟩))
        (copy_value c1 c2)]
      unfold rotated
      rw [if_neg (by omega), if_neg (by omega)]
      beta_reduce
      rw [hf.actDense (n, h, s) d hr hd]
  · intro a ha
    apply runAll_of_not
    intro s hs hw
    rcases List.mem_append.mp hs with hs | hs
    · obtain ⟨r, hr, hs⟩ := List.mem_flatMap.mp hs
      obtain ⟨p, hp, rfl⟩ := List.mem_map.mp hs
      have hr := mem_rows.mp hr
      obtain ⟨e, -, hD', he⟩ := (rotIter_on lay act out _ _ r (hbr p hp) hD).2 a hw
      rw [← hf.outDense r e hr hD'] at he
      exact ha _ _ _ e hr.1 hr.2.1 hr.2.2 hD' he
    · obtain ⟨r, hr, hs⟩ := List.mem_flatMap.mp hs
      obtain ⟨p, hp, rfl⟩ := List.mem_map.mp hs
      have hr := mem_rows.mp hr
      obtain ⟨e, -, hD', he⟩ := (copyIter_on lay act out r (hbc p hp).2).2 a hw
      rw [← hf.outDense r e hr hD'] at he
      exact ha _ _ _ e hr.1 hr.2.1 hr.2.2 hD' he

/-- C116 for the multimodal and vision operators (ARM): the same, for an even head dimension, with one table for all
batch rows. -/
theorem C116_mrope_partial [Ring R] (step : Nat) (hs : 0 < step) (lay : Layout) (B H S D : Nat) (hev : D % 2 = 0)
    (act out : View) (hf : Fits lay B H S D act out) (sn cs : Nat → Nat → R) (mem : Int → R) :
    ∀ n h s d, n < B → h < H → s < S → d < D →
      runAll (mropeForward step lay B H S D act out sn cs) mem (out.addr (lay.idx (n, h, s) d)) =
        rotated (D / 2) (sn s) (cs s) (fun e => mem (act.addr (lay.idx (n, h, s) e))) d := by
  intro n h s d hn hh hs' hd
  have hpair := rot_pairwise hf step (D / 2) (by omega) (fun r => sn r.2.2) (fun r => cs r.2.2)
  have := rot_elems hf hs (half := D / 2) (by omega) (fun r => sn r.2.2) (fun r => cs r.2.2) [] (by simp)
    (by rw [List.append_nil]; exact hpair) mem (n, h, s) ⟨hn, hh, hs'⟩ d (by omega)
  rw [List.append_nil] at this
  exact this

/-- C116 is violated by those two operators for an odd head dimension and a fresh output: the last element of a row is
never written, the caller sees whatever the allocation held. -/
theorem C116_odd_dim_violated [Ring R] (step : Nat) (lay : Layout) (B H S D : Nat) (hodd : D % 2 = 1)
    (act out : View) (hf : Fits lay B H S D act out) (sn cs : Nat → Nat → R) (mem : Int → R) :
    ∀ n h s, n < B → h < H → s < S →
      runAll (mropeForward step lay B H S D act out sn cs) mem (out.addr (lay.idx (n, h, s) (D - 1))) =
        mem (out.addr (lay.idx (n, h, s) (D - 1))) := by
  intro n h s hn hh hs
  apply runAll_of_not
  intro t ht hw
  obtain ⟨r, hr, ht⟩ := List.mem_flatMap.mp ht
  obtain ⟨p, hp, rfl⟩ := List.mem_map.mp ht
  have hr := mem_rows.mp hr
  have hb := (chunks_bound hp).2
  obtain ⟨e, hE, hD', he⟩ := (rotIter_on lay (D := D) act out _ _ r (by omega : p.1 + p.2 ≤ D / 2) (by omega)).2 _ hw
  rw [← hf.outDense r e hr hD'] at he
  have := (hf.inj (n, h, s) r (D - 1) e ⟨hn, hh, hs⟩ hr (by omega) hD' he).2
  omega

/-- Row-major storage, in place and out of place, meets `Fits` for both layouts. -/
theorem fits_contig (lay : Layout) (B H S D : Nat) (a b : Int) (hab : a = b ∨ a + (B * H * S * D : Nat) ≤ b ∨ b + (B * H * S * D : Nat) ≤ a) :
    Fits lay B H S D ⟨a, Verif.Tensor.rowStrides (match lay with | .bhsd => [B, H, S, D] | .bshd => [B, S, H, D])⟩
      ⟨b, Verif.Tensor.rowStrides (match lay with | .bhsd => [B, H, S, D] | .bshd => [B, S, H, D])⟩ := by
  set sh : List Nat := (match lay with | .bhsd => [B, H, S, D] | .bshd => [B, S, H, D]) with hsh
  have haddr : ∀ (o : Int) r d, (View.mk o (Verif.Tensor.rowStrides sh)).addr (lay.idx r d) = o + Verif.Tensor.lin sh (lay.idx r d) := by
    intro o r d
    show o + _ = _
    rw [Verif.Tensor.dot_rowStrides]
    cases lay <;> rfl
  have hin : ∀ r d, RowIn B H S r → d < D → Verif.Tensor.InB sh (lay.idx r d) := by
    rintro ⟨n, h, s⟩ d ⟨h1, h2, h3⟩ hd
    cases lay
    · exact ⟨h1, h2, h3, hd, trivial⟩
    · exact ⟨h1, h3, h2, hd, trivial⟩
  have hdense : ∀ r d, Verif.Tensor.lin sh (lay.idx r d) = Verif.Tensor.lin sh (lay.idx r 0) + d := by
    rintro ⟨n, h, s⟩ d
    cases lay <;> simp [hsh, Layout.idx, Verif.Tensor.lin, Verif.Tensor.numel, Nat.add_assoc]
  have hlt : ∀ r d, RowIn B H S r → d < D → Verif.Tensor.lin sh (lay.idx r d) < B * H * S * D := by
    intro r d hr hd
    have := Verif.Tensor.lin_lt (hin r d hr hd)
    have e : Verif.Tensor.numel sh = B * H * S * D := by
      cases lay <;> simp [hsh, Verif.Tensor.numel] <;> ring
    rwa [e] at this
  refine ⟨?_, ?_, ?_, ?_⟩
  · intro r d _ _; rw [haddr, haddr, hdense r d]; push_cast; ring
  · intro r d _ _; rw [haddr, haddr, hdense r d]; push_cast; ring
  · intro r r' d d' hr hr' hd hd' he
    rw [haddr, haddr] at he
    have := Verif.Tensor.lin_inj (hin r d hr hd) (hin r' d' hr' hd') (by omega)
    obtain ⟨n, h, s⟩ := r
    obtain ⟨n', h', s'⟩ := r'
    cases lay <;> simp only [Layout.idx, List.cons.injEq, and_true] at this <;> obtain ⟨rfl, rfl, rfl, rfl⟩ := this <;> exact ⟨rfl, rfl⟩
  · rcases hab with h | h
    · left; rw [h]
    · right
      intro r r' d d' hr hr' hd hd'
      rw [haddr, haddr]
      have h1 := hlt r d hr hd
      have h2 := hlt r' d' hr' hd'
      omega

/-- Hypotheses are met and the result is what it should be: two heads, in place, partial rotation of 4 of 5
dimensions, vector width 4. -/
example : let v : View := ⟨0, Verif.Tensor.rowStrides [1, 2, 1, 5]⟩
    Fits .bhsd 1 2 1 5 v v ∧
    runAll (ropeForward (R := Int) 4 .bhsd 1 2 1 5 (some 4) v v (fun _ _ d => if d = 0 then 1 else 0) (fun _ _ d => if d = 0 then 0 else 1))
      (fun a => a) (v.addr [0, 1, 0, 0]) = -7 := by
  refine ⟨fits_contig .bhsd 1 2 1 5 0 0 (.inl rfl), by decide +kernel⟩

end Verif.Vl
