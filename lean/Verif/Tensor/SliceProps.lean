import Verif.Tensor.ViewProps
/-
C19: `t[{...}]`.
-/
namespace Verif.Tensor
variable {α : Type}

/-! ### Specification: Python-style selection of one dimension -/

/-- What the caller writes for one dimension: everything, one index, or `start:end:step` with
optional bounds. -/
inductive Sel where
  | all
  | one (v : Int)
  | range (start fin : Option Int) (step : Nat)

/-- How it is passed to `Tensor::operator[]` (`kAll` for an omitted bound). -/
def Sel.toPair : Sel → SlicePair
  | .all => {}
  | .one v => SlicePair.ofInt v
  | .range a b s => ⟨a.getD kAll, b.getD kAll, s⟩

/-- A negative index counts from the end. -/
def resolve (n : Nat) (v : Int) : Int := if v < 0 then v + n else v

/-- First selected position. -/
def Sel.start (n : Nat) : Sel → Int
  | .all => 0
  | .one v => resolve n v
  | .range a _ _ => match a with | some v => resolve n v | none => 0

/-- Selected positions stay below this. -/
def Sel.stop (n : Nat) : Sel → Int
  | .all => n
  | .one v => resolve n v + 1
  | .range _ b _ => match b with | some v => resolve n v | none => n

def Sel.step : Sel → Nat
  | .all => 1
  | .one _ => 1
  | .range _ _ s => s

/-- The selection is in range for a dimension of size `n`. -/
def Sel.InRange (n : Nat) : Sel → Prop
  | .all => True
  | .one v => -(n : Int) ≤ v ∧ v < n
  | .range a b s => 1 ≤ s ∧ (∀ v, a = some v → -(n : Int) ≤ v ∧ v ≤ n) ∧
      (∀ v, b = some v → -(n : Int) ≤ v ∧ v ≤ n)

/-- `cnt` is the number of positions `start, start+step, …` below `stop`. -/
def IsCount (n : Nat) (s : Sel) (cnt : Nat) : Prop :=
  ∀ m : Nat, m < cnt ↔ s.start n + m * s.step < s.stop n

/-- Every dimension in range; new shape = the counts. -/
def AllInRange : List Nat → List Sel → Prop
  | [], [] => True
  | n :: ns, s :: ss => s.InRange n ∧ AllInRange ns ss
  | _, _ => False

def IsCounts : List Nat → List Sel → List Nat → Prop
  | [], [], [] => True
  | n :: ns, s :: ss, c :: cs => IsCount n s c ∧ IsCounts ns ss cs
  | _, _, _ => False

/-- The element of `t` that the caller means by element `idx` of the slice. -/
def selPos : List Nat → List Sel → List Nat → List Nat
  | n :: ns, s :: ss, i :: is => ((s.start n).toNat + i * s.step) :: selPos ns ss is
  | _, _, _ => []

/-- The one range the code misreads (see `slice_minus_one_zero_violated`). -/
def Sel.minusOneZero : Sel → Prop
  | .range a b _ => a = some (-1) ∧ b = some 0
  | _ => False

/-! ### Proofs -/

theorem sliceCount_spec (a b : Int) (s : Nat) (hs : 1 ≤ s) (m : Nat) :
    m < sliceCount a b s ↔ a + m * s < b := by
  unfold sliceCount
  have hs' : (0 : Int) < s := by omega
  split_ifs with hab
  · rw [Int.lt_toNat, Int.lt_iff_add_one_le, Int.le_ediv_iff_mul_le hs']
    constructor
    · intro h; nlinarith
    · intro h; nlinarith
  · constructor
    · intro h; omega
    · intro h
      have : (0 : Int) ≤ (m : Int) * s := by positivity
      omega

theorem resolve_bounds {n : Nat} {v : Int} (h1 : -(n : Int) ≤ v) (h2 : v ≤ n) :
    0 ≤ resolve n v ∧ resolve n v ≤ n := by unfold resolve; split_ifs <;> omega

theorem bounds_of (n : Nat) (a b : Int) (ha : -(n : Int) ≤ a) (hz : ¬ (a = -1 ∧ b = 0)) :
    (fixNeg n (shiftBoth n a b).1, fixNeg n (shiftBoth n a b).2) = (resolve n a, resolve n b) := by
  unfold shiftBoth fixNeg resolve
  split_ifs <;> simp only [Prod.mk.injEq] at * <;> constructor <;> omega

theorem sliceBounds_of {n : Nat} {s : Sel} (h : s.InRange n) (hn : (n : Int) < kAll)
    (hz : ¬ s.minusOneZero) :
    sliceBounds n s.toPair = (s.start n, s.stop n) ∧ 0 ≤ s.start n ∧ s.stop n ≤ n ∧ 1 ≤ s.step ∧
      s.toPair.step = s.step := by
  cases s with
  | all =>
    refine ⟨?_, by simp [Sel.start], by simp [Sel.stop], by simp [Sel.step], rfl⟩
    simp only [sliceBounds, Sel.toPair, if_true, Sel.start, Sel.stop]
    rw [bounds_of n 0 n (by omega) (by omega)]
    simp [resolve]
  | one v =>
    obtain ⟨h1, h2⟩ := h
    have hv : v ≠ kAll := by omega
    have hb := resolve_bounds h1 (by omega : v ≤ n)
    refine ⟨?_, hb.1, by simp only [Sel.stop]; unfold resolve; split_ifs <;> omega,
      by simp [Sel.step], by simp [Sel.toPair, SlicePair.ofInt, hv, Sel.step]⟩
    simp only [sliceBounds, Sel.toPair, SlicePair.ofInt, if_neg hv, Sel.start, Sel.stop]
    rw [if_neg (show v + 1 ≠ kAll by omega)]
    have e2 : v + 1 ≠ kAll := by omega
    by_cases hneg : v < 0
    · have : v < 0 ∧ v + 1 ≠ kAll ∧ v + 1 - v = 1 := ⟨hneg, e2, by omega⟩
      simp only [shiftBoth, if_pos this, fixNeg, resolve, if_pos hneg]
      rw [if_neg (by omega), if_neg (by omega), Prod.mk.injEq]
      exact ⟨rfl, by ring⟩
    · have : ¬ (v < 0 ∧ v + 1 ≠ kAll ∧ v + 1 - v = 1) := fun h => hneg h.1
      simp only [shiftBoth, if_neg this, fixNeg, resolve, if_neg hneg]
      rw [if_neg (by omega)]
  | range a b st =>
    obtain ⟨hst, ha, hb⟩ := h
    have hA : (if (a.getD kAll) = kAll then 0 else a.getD kAll) = a.getD 0 ∧
        -(n : Int) ≤ a.getD 0 ∧ a.getD 0 ≤ n := by
      cases a with
      | none => simp
      | some v =>
        have := ha v rfl
        simp only [Option.getD_some]
        rw [if_neg (show v ≠ kAll by omega)]; exact ⟨rfl, this⟩
    have hB : (if (b.getD kAll) = kAll then (n : Int) else b.getD kAll) = b.getD n ∧
        -(n : Int) ≤ b.getD n ∧ b.getD n ≤ n := by
      cases b with
      | none => exact ⟨by simp, by simp only [Option.getD_none]; omega, by simp⟩
      | some v =>
        have := hb v rfl
        simp only [Option.getD_some]
        rw [if_neg (show v ≠ kAll by omega)]; exact ⟨rfl, this⟩
    have hz' : ¬ (a.getD 0 = -1 ∧ b.getD (n : Int) = 0) := by
      rintro ⟨h1, h2⟩
      cases a with
      | none => simp at h1
      | some v =>
        cases b with
        | none =>
          simp at h1 h2; have := ha v rfl; omega
        | some w => simp at h1 h2; exact hz ⟨by rw [h1], by rw [h2]⟩
    have hS : Sel.start n (.range a b st) = resolve n (a.getD 0) := by
      cases a <;> simp [Sel.start, resolve]
    have hE : Sel.stop n (.range a b st) = resolve n (b.getD n) := by
      cases b with
      | none => simp [Sel.stop, resolve]
      | some w => simp [Sel.stop]
    have rb := resolve_bounds hA.2.1 hA.2.2
    have rb' := resolve_bounds hB.2.1 hB.2.2
    refine ⟨?_, hS ▸ rb.1, hE ▸ rb'.2, hst, rfl⟩
    rw [hS, hE]
    change (fixNeg n (shiftBoth n (if (a.getD kAll) = kAll then 0 else a.getD kAll)
      (if (b.getD kAll) = kAll then (n : Int) else b.getD kAll)).1,
      fixNeg n (shiftBoth n (if (a.getD kAll) = kAll then 0 else a.getD kAll)
      (if (b.getD kAll) = kAll then (n : Int) else b.getD kAll)).2) = _
    rw [hA.1, hB.1]
    exact bounds_of n _ _ hA.2.1 hz'

theorem sliceDim_of {n : Nat} {s : Sel} (h : s.InRange n) (hn : (n : Int) < kAll)
    (hz : ¬ s.minusOneZero) :
    ∃ c, sliceDim n s.toPair = some (s.start n, c, (s.step : Int)) ∧ IsCount n s c ∧
      0 ≤ s.start n ∧ s.stop n ≤ n ∧ 1 ≤ s.step := by
  obtain ⟨h1, h2, h3, h4, h5⟩ := sliceBounds_of h hn hz
  refine ⟨sliceCount (s.start n) (s.stop n) s.step, ?_, fun m => sliceCount_spec _ _ _ h4 m, h2, h3, h4⟩
  unfold sliceDim
  rw [h1, h5, if_neg (by omega)]

theorem sliceDims_spec : ∀ (ns : List Nat) (ss : List Int) (sels : List Sel),
    ss.length = ns.length → AllInRange ns sels → (∀ n ∈ ns, (n : Int) < kAll) →
    (∀ s ∈ sels, ¬ s.minusOneZero) →
    ∃ o sh sd, sliceDims ns ss (sels.map Sel.toPair) = some (o, sh, sd) ∧ IsCounts ns sels sh ∧
      sh.length = ns.length ∧
      ∀ idx, InB sh idx → InB ns (selPos ns sels idx) ∧
        o + dot idx sd = dot (selPos ns sels idx) ss
  | [], [], [], _, _, _, _ => by
    refine ⟨0, [], [], rfl, trivial, rfl, ?_⟩
    intro idx h
    cases idx with
    | nil => exact ⟨trivial, rfl⟩
    | cons => exact absurd h id
  | n :: ns, s :: ss, e :: es, hl, hr, hn, hz => by
    obtain ⟨o, sh, sd, h1, h2, h3, h4⟩ := sliceDims_spec ns ss es (by simpa using hl) hr.2
      (fun n h => hn n (by simp [h])) (fun s h => hz s (by simp [h]))
    obtain ⟨c, g1, g2, g3, g4, g5⟩ := sliceDim_of hr.1 (hn n (by simp)) (hz e (by simp))
    refine ⟨e.start n * s + o, c :: sh, s * (e.step : Int) :: sd, ?_, ⟨g2, h2⟩, by simp [h3], ?_⟩
    · simp only [List.map_cons, sliceDims, g1, h1, Option.bind_eq_bind, Option.bind_some]; rfl
    · intro idx h
      cases idx with
      | nil => exact absurd h id
      | cons i is =>
        obtain ⟨a1, a2⟩ := h4 is h.2
        have hlt := (g2 i).mp h.1
        refine ⟨⟨?_, a1⟩, ?_⟩
        · have : ((i * e.step : Nat) : Int) = (i : Int) * e.step := by push_cast; rfl
          omega
        · simp only [dot, selPos]
          rw [← a2]
          push_cast
          rw [Int.toNat_of_nonneg g3]
          ring
  | [], _ :: _, _, h, _, _, _ => by simp at h
  | _ :: _, [], _, h, _, _, _ => by simp at h
  | [], [], _ :: _, _, h, _, _ => absurd h id
  | _ :: _, _ :: _, [], _, h, _, _ => absurd h id

/-- C19. For in-range selections (other than the literal range `-1:0`, see
`slice_minus_one_zero_violated`), the slice exists, shares the memory of `t`, has in each dimension
exactly as many elements as `start, start+step, …` below `end`, and its element `idx` is element
`start + idx*step` of `t`, which is inside `t`. Shapes and strides of `t` are arbitrary, so nested
slices are covered. -/
theorem slice_elements_partial (t : Tens α) (sels : List Sel) (hs : t.stride.length = t.shape.length)
    (hr : AllInRange t.shape sels) (hn : ∀ n ∈ t.shape, (n : Int) < kAll)
    (hz : ∀ s ∈ sels, ¬ s.minusOneZero) :
    ∃ r, slice t (sels.map Sel.toPair) = some r ∧ r.mem = t.mem ∧ IsCounts t.shape sels r.shape ∧
      ∀ idx, InB r.shape idx →
        InB t.shape (selPos t.shape sels idx) ∧ r.elem idx = t.elem (selPos t.shape sels idx) := by
  obtain ⟨o, sh, sd, h1, h2, h3, h4⟩ := sliceDims_spec t.shape t.stride sels hs hr hn hz
  refine ⟨⟨t.off + o, sh, sd, t.mem⟩, by simp [slice, h1], rfl, h2, ?_⟩
  intro idx hi
  obtain ⟨a, b⟩ := h4 idx hi
  refine ⟨a, ?_⟩
  simp only [Tens.elem, Tens.addr, ← b, Int.add_assoc]

/-- C19. Slicing a slice: element `idx` of the second slice is the composed position. -/
theorem slice_slice (t : Tens α) (s1 s2 : List Sel) (hs : t.stride.length = t.shape.length)
    (hr1 : AllInRange t.shape s1) (hn : ∀ n ∈ t.shape, (n : Int) < kAll)
    (hz1 : ∀ s ∈ s1, ¬ s.minusOneZero) (hz2 : ∀ s ∈ s2, ¬ s.minusOneZero) (r1 : Tens α)
    (h1 : slice t (s1.map Sel.toPair) = some r1) (hr2 : AllInRange r1.shape s2)
    (hn1 : ∀ n ∈ r1.shape, (n : Int) < kAll) :
    ∃ r2, slice r1 (s2.map Sel.toPair) = some r2 ∧ r2.mem = t.mem ∧
      ∀ idx, InB r2.shape idx →
        InB t.shape (selPos t.shape s1 (selPos r1.shape s2 idx)) ∧
        r2.elem idx = t.elem (selPos t.shape s1 (selPos r1.shape s2 idx)) := by
  obtain ⟨r1', g1, g2, g3, g4⟩ := slice_elements_partial t s1 hs hr1 hn hz1
  rw [h1] at g1; cases g1
  have hlen : r1.stride.length = r1.shape.length := by
    unfold slice at h1
    cases hd : sliceDims t.shape t.stride (s1.map Sel.toPair) with
    | none => simp [hd] at h1
    | some x =>
      obtain ⟨o, sh, sd⟩ := x
      simp only [hd, Option.bind_eq_bind, Option.bind_some, Option.pure_def, Option.some.injEq] at h1
      subst h1
      have : ∀ (ns : List Nat) (ss : List Int) (ps : List SlicePair) o sh sd,
          sliceDims ns ss ps = some (o, sh, sd) → sd.length = sh.length := by
        intro ns
        induction ns with
        | nil =>
          intro ss ps o sh sd h
          cases ss <;> cases ps <;> simp [sliceDims] at h
          obtain ⟨_, e1, e2⟩ := h
          subst e1 e2; rfl
        | cons n ns ih =>
          intro ss ps o sh sd h
          cases ss with
          | nil => cases ps <;> simp [sliceDims] at h
          | cons s ss =>
            cases ps with
            | nil => simp [sliceDims] at h
            | cons p ps =>
              simp only [sliceDims, Option.bind_eq_bind] at h
              cases h1 : sliceDim n p with
              | none => simp [h1] at h
              | some y =>
                cases h2 : sliceDims ns ss ps with
                | none => simp [h1, h2] at h
                | some z =>
                  obtain ⟨o', sh', sd'⟩ := z
                  simp only [h1, h2, Option.bind_some, Option.pure_def, Option.some.injEq,
                    Prod.mk.injEq] at h
                  obtain ⟨_, e1, e2⟩ := h
                  subst e1 e2
                  simp [ih _ _ _ _ _ h2]
      exact this _ _ _ _ _ _ hd
  obtain ⟨r2, k1, k2, k3, k4⟩ := slice_elements_partial r1 s2 hlen hr2 hn1 hz2
  refine ⟨r2, k1, by rw [k2, g2], fun idx hi => ?_⟩
  obtain ⟨a, b⟩ := k4 idx hi
  obtain ⟨c, d⟩ := g4 _ a
  exact ⟨c, by rw [b, d]⟩

/-- Hypotheses are met: rows 1 and 3 (counting -3 as 1), columns from the last two. -/
example : AllInRange [4, 5] [.range (some (-3)) none 2, .range (some (-2)) none 1] ∧
    (∃ r, slice (fresh [4, 5] (fun k => some k))
      ([Sel.range (some (-3)) none 2, .range (some (-2)) none 1].map Sel.toPair) = some r ∧
      r.shape = [2, 2] ∧ r.elem [1, 0] = some 18) := by
  refine ⟨?_, _, rfl, rfl, rfl⟩
  simp [AllInRange, Sel.InRange]

/-- C19 is violated for the range `-1:0`: it selects nothing, but the code returns the last
element. -/
theorem slice_minus_one_zero_violated :
    ∃ (n : Nat) (r : Tens Nat), (Sel.range (some (-1)) (some 0) 1).InRange n ∧
      slice (fresh [n] (fun k => some k)) [(Sel.range (some (-1)) (some 0) 1).toPair] = some r ∧
      ¬ IsCounts [n] [Sel.range (some (-1)) (some 0) 1] r.shape ∧ r.elem [0] = some 3 := by
  refine ⟨4, _, ?_, rfl, ?_, rfl⟩
  · simp [Sel.InRange]
  · intro h
    have := (h.1 0).mp (by decide)
    simp [Sel.start, Sel.stop, resolve] at this

/-- C19 is violated for out-of-range bounds: they are neither clamped nor refused, so the view
reaches past the tensor (here: into memory that belongs to the next tensor of the same storage). -/
theorem slice_out_of_range_violated :
    ∃ (t r : Tens Nat) (p : SlicePair), t.shape = [2] ∧ t.Contig ∧ slice t [p] = some r ∧
      InB r.shape [4] ∧ (∀ j, InB t.shape j → r.addr [4] ≠ t.addr j) := by
  refine ⟨⟨0, [2], [1], fun _ => none⟩, _, ⟨0, 5, 1⟩, rfl, rfl, rfl, ⟨by decide, trivial⟩, ?_⟩
  intro j hj
  match j, hj with
  | [a], h =>
    have := h.1
    simp only [Tens.addr, dot]
    have e : (0 : Int) + ((sliceBounds 2 (⟨0, 5, 1⟩ : SlicePair)).1 * 1 + 0) +
      (((4 : Nat) : Int) * (1 * 1) + 0) = 4 := by decide
    intro hh
    have : (4 : Int) = 0 + ((a : Int) * 1 + 0) := by rw [← hh]; exact e.symm
    omega

end Verif.Tensor
