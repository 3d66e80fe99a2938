import Verif.Tensor.Join
/-
C41: `concat`, `stack`, `split`, `repeat`.
-/
namespace Verif.Tensor
variable {α : Type}

theorem bufV_eq {ws : List (Nat × Option α)} {k : Nat} {v : Option α}
    (h1 : ∀ w ∈ ws, w.1 = k → w.2 = v) (h2 : (k, v) ∈ ws) : bufV ws k = v := by
  unfold bufV
  cases hf : ws.reverse.find? (fun w => w.1 = k) with
  | none =>
    have := List.find?_eq_none.mp hf (k, v) (by simpa using h2)
    simp at this
  | some w =>
    have hm := List.mem_of_find?_eq_some hf
    have hp := List.find?_some hf
    exact h1 w (by simpa using hm) (by simpa using hp)

theorem lin_append : ∀ (a i b j : List Nat), i.length = a.length →
    lin (a ++ b) (i ++ j) = lin a i * numel b + lin b j
  | [], [], b, j, _ => by simp [lin]
  | d :: a, x :: i, b, j, h => by
    simp only [List.cons_append, lin, lin_append a i b j (by simpa using h), numel_append]
    ring

theorem inB_append : ∀ (a i b j : List Nat), i.length = a.length →
    (InB (a ++ b) (i ++ j) ↔ InB a i ∧ InB b j)
  | [], [], b, j, _ => by simp [InB]
  | d :: a, x :: i, b, j, h => by
    simp only [List.cons_append, InB, inB_append a i b j (by simpa using h), and_assoc]

theorem inB_split {a b i : List Nat} (h : InB (a ++ b) i) :
    ∃ p q, i = p ++ q ∧ p.length = a.length ∧ InB a p ∧ InB b q := by
  refine ⟨i.take a.length, i.drop a.length, (List.take_append_drop _ _).symm, ?_, ?_⟩
  · have := h.length; simp at this ⊢; omega
  · rw [← inB_append _ _ _ _ (by have := h.length; simp at this ⊢; omega), List.take_append_drop]
    exact h

theorem isContiguous_some : ∀ {sh : List Nat} {st : List Int}, (isContiguous sh st).isSome = true →
    st = rowStrides sh := by
  have key : ∀ (sh : List Nat) (st : List Int) (c : Nat), isContiguous sh st = some c →
      st = rowStrides sh ∧ c = numel sh := by
    intro sh
    induction sh with
    | nil => intro st c h; cases st <;> simp [isContiguous] at h; simp [rowStrides, numel, h]
    | cons d ds ih =>
      intro st c h
      cases st with
      | nil => simp [isContiguous] at h
      | cons s ss =>
        simp only [isContiguous] at h
        cases hc : isContiguous ds ss with
        | none => simp [hc] at h
        | some cur =>
          obtain ⟨h1, h2⟩ := ih _ _ hc
          rw [hc] at h
          simp only [Option.bind_eq_bind, Option.bind_some] at h
          split_ifs at h with h3
          simp only [Option.some.injEq] at h
          exact ⟨by simp [rowStrides, ← h1, ← h2, not_not.mp h3], by rw [← h, h2, numel, Nat.mul_comm]⟩
  intro sh st h
  obtain ⟨c, hc⟩ := Option.isSome_iff_exists.mp h
  exact (key _ _ _ hc).1

theorem Tens.Contig.raw {t : Tens α} (h : t.Contig) {idx} (hi : InB t.shape idx) :
    t.raw (lin t.shape idx) = t.elem idx := by rw [Tens.raw, Tens.elem, h.addr hi]

/-- Writes of the contiguous branch, in terms of indices. -/
theorem mem_catWritesC {pre post : List Nat} {T : Nat} :
    ∀ (ts : List (Tens α)) (off : Nat), (∀ t ∈ ts, t.Contig ∧ ∃ n, t.shape = pre ++ n :: post) →
    ∀ w, (w ∈ catWritesC (numel pre) (numel post) T pre.length off ts ↔
      ∃ a t b p x q, ts = a ++ t :: b ∧ p.length = pre.length ∧ InB t.shape (p ++ x :: q) ∧
        w = (lin (pre ++ T :: post) (p ++ (off + catSize pre.length a + x) :: q), t.elem (p ++ x :: q)))
  | [], off, _, w => by simp [catWritesC]
  | t :: ts, off, h, w => by
    obtain ⟨hc, n, hn⟩ := h t (by simp)
    have hget : t.shape.getD pre.length 0 = n := by
      rw [hn, List.getD_append_right _ _ _ _ (le_refl _)]; simp
    have ih := mem_catWritesC (T := T) ts (off + n) (fun t ht => h t (by simp [ht])) w
    simp only [catWritesC, hget, List.mem_append, ih, List.mem_flatMap, List.mem_map, List.mem_range]
    constructor
    · rintro (⟨s, hs, e, he, rfl⟩ | ⟨a, u, b, p, x, q, h1, h2, h3, rfl⟩)
      · have cs := coords_spec hs
        have ce := coords_spec (s := n :: post) (k := e) (by simpa [numel] using he)
        obtain ⟨x, q, hxq⟩ : ∃ x q, coords (n :: post) e = x :: q := by
          cases hh : coords (n :: post) e with
          | nil => rw [hh] at ce; exact absurd ce.1 id
          | cons x q => exact ⟨x, q, rfl⟩
        rw [hxq] at ce
        have hin : InB t.shape (coords pre s ++ x :: q) := by
          rw [hn, inB_append _ _ _ _ cs.1.length]; exact ⟨cs.1, ce.1⟩
        refine ⟨[], t, ts, coords pre s, x, q, rfl, cs.1.length, hin, ?_⟩
        rw [← hc.raw hin]
        have e1 : lin t.shape (coords pre s ++ x :: q) = s * (n * numel post) + e := by
          rw [hn, lin_append _ _ _ _ cs.1.length, cs.2, ce.2, numel]
        rw [e1, lin_append _ _ _ _ cs.1.length, cs.2]
        have e2 := ce.2
        simp only [lin] at e2
        simp only [numel, lin, catSize, List.map_nil, List.sum_nil, ← e2]
        congr 1
        ring
      · refine ⟨t :: a, u, b, p, x, q, by simp [h1], h2, h3, ?_⟩
        have : catSize pre.length (t :: a) = n + catSize pre.length a := by
          simp only [catSize, List.map_cons, List.sum_cons, hget]
        rw [this, ← Nat.add_assoc]
    · rintro ⟨a, u, b, p, x, q, h1, h2, h3, rfl⟩
      cases a with
      | nil =>
        simp only [List.nil_append, List.cons.injEq] at h1
        obtain ⟨rfl, rfl⟩ := h1
        left
        have h3' := h3
        rw [hn, inB_append _ _ _ _ h2] at h3'
        refine ⟨lin pre p, lin_lt h3'.1, lin (n :: post) (x :: q), by simpa [numel] using lin_lt h3'.2, ?_⟩
        rw [← hc.raw h3]
        have e1 : lin t.shape (p ++ x :: q) = lin pre p * (n * numel post) + lin (n :: post) (x :: q) := by
          rw [hn, lin_append _ _ _ _ h2, numel]
        rw [e1, lin_append _ _ _ _ h2]
        simp only [numel, lin, catSize, List.map_nil, List.sum_nil]
        congr 1
        ring
      | cons t' a =>
        simp only [List.cons_append, List.cons.injEq] at h1
        obtain ⟨rfl, h1⟩ := h1
        right
        refine ⟨a, u, b, p, x, q, h1, h2, h3, ?_⟩
        have : catSize pre.length (t :: a) = n + catSize pre.length a := by
          simp only [catSize, List.map_cons, List.sum_cons, hget]
        rw [this, ← Nat.add_assoc]

theorem mem_catWritesS {pre post : List Nat} {T : Nat} :
    ∀ (ts : List (Tens α)) (off : Nat), (∀ t ∈ ts, ∃ n, t.shape = pre ++ n :: post) →
    ∀ w, (w ∈ catWritesS (pre ++ T :: post) pre.length off ts ↔
      ∃ a t b p x q, ts = a ++ t :: b ∧ p.length = pre.length ∧ InB t.shape (p ++ x :: q) ∧
        w = (lin (pre ++ T :: post) (p ++ (off + catSize pre.length a + x) :: q), t.elem (p ++ x :: q)))
  | [], off, _, w => by simp [catWritesS]
  | t :: ts, off, h, w => by
    obtain ⟨n, hn⟩ := h t (by simp)
    have hget : t.shape.getD pre.length 0 = n := by
      rw [hn, List.getD_append_right _ _ _ _ (le_refl _)]; simp
    have hset : ∀ (p : List Nat) (x : Nat) (q : List Nat), p.length = pre.length →
        (p ++ x :: q).set pre.length (off + (p ++ x :: q).getD pre.length 0) = p ++ (off + x) :: q := by
      intro p x q hp
      rw [← hp]
      simp
    have ih := mem_catWritesS (T := T) ts (off + n) (fun t ht => h t (by simp [ht])) w
    simp only [catWritesS, hget, List.mem_append, ih, List.mem_map, List.mem_range]
    constructor
    · rintro (⟨j, hj, rfl⟩ | ⟨a, u, b, p, x, q, h1, h2, h3, rfl⟩)
      · have cs := coords_spec hj
        have hcs : InB (pre ++ n :: post) (coords t.shape j) := by rw [← hn]; exact cs.1
        obtain ⟨p, r, e1, e2, e3, e4⟩ := inB_split hcs
        cases r with
        | nil => exact absurd e4 id
        | cons x q =>
          refine ⟨[], t, ts, p, x, q, rfl, e2, ?_, ?_⟩
          · rw [← e1]; exact cs.1
          · rw [e1, hset p x q e2]
            simp [catSize]
      · refine ⟨t :: a, u, b, p, x, q, by simp [h1], h2, h3, ?_⟩
        have : catSize pre.length (t :: a) = n + catSize pre.length a := by
          simp only [catSize, List.map_cons, List.sum_cons, hget]
        rw [this, ← Nat.add_assoc]
    · rintro ⟨a, u, b, p, x, q, h1, h2, h3, rfl⟩
      cases a with
      | nil =>
        simp only [List.nil_append, List.cons.injEq] at h1
        obtain ⟨rfl, rfl⟩ := h1
        left
        refine ⟨lin t.shape (p ++ x :: q), lin_lt h3, ?_⟩
        rw [coords_lin h3, hset p x q h2]
        simp [catSize]
      | cons t' a =>
        simp only [List.cons_append, List.cons.injEq] at h1
        obtain ⟨rfl, h1⟩ := h1
        right
        refine ⟨a, u, b, p, x, q, h1, h2, h3, ?_⟩
        have : catSize pre.length (t :: a) = n + catSize pre.length a := by
          simp only [catSize, List.map_cons, List.sum_cons, hget]
        rw [this, ← Nat.add_assoc]

/-- A position inside the concatenated dimension belongs to exactly one input. -/
theorem cat_unique {dim : Nat} : ∀ (a a' : List (Tens α)) {t t' : Tens α} {b b' : List (Tens α)} {x x' : Nat},
    a ++ t :: b = a' ++ t' :: b' → x < t.shape.getD dim 0 → x' < t'.shape.getD dim 0 →
    catSize dim a + x = catSize dim a' + x' → a = a' ∧ t = t' ∧ x = x'
  | [], [], t, t', b, b', x, x', h, _, _, he => by
    simp only [List.nil_append, List.cons.injEq] at h
    exact ⟨rfl, h.1, by simpa [catSize] using he⟩
  | [], u :: a', t, t', b, b', x, x', h, h1, h2, he => by
    simp only [List.nil_append, List.cons_append, List.cons.injEq] at h
    obtain ⟨rfl, h⟩ := h
    simp only [catSize, List.map_nil, List.sum_nil, List.map_cons, List.sum_cons] at he
    omega
  | u :: a, [], t, t', b, b', x, x', h, h1, h2, he => by
    simp only [List.nil_append, List.cons_append, List.cons.injEq] at h
    obtain ⟨rfl, h⟩ := h
    simp only [catSize, List.map_nil, List.sum_nil, List.map_cons, List.sum_cons] at he
    omega
  | u :: a, u' :: a', t, t', b, b', x, x', h, h1, h2, he => by
    simp only [List.cons_append, List.cons.injEq] at h
    obtain ⟨rfl, h⟩ := h
    have := cat_unique (dim := dim) a a' h h1 h2 (by
      simp only [catSize, List.map_cons, List.sum_cons] at he ⊢; omega)
    exact ⟨by rw [this.1], this.2⟩

theorem catSize_append (dim : Nat) (a b : List (Tens α)) :
    catSize dim (a ++ b) = catSize dim a + catSize dim b := by simp [catSize]

/-- C41, concat. For every non-empty list of tensors whose shapes agree except at dimension
`pre.length` (given as that number or counted from the end), row-major or strided: the result has the
sum of the sizes at that dimension, and element `(p, x, q)` of input `t` is found at
`(p, (sizes of the inputs before t) + x, q)`. -/
theorem concat_elements (ts : List (Tens α)) (hne : ts ≠ []) (pre post : List Nat) (d : Int)
    (hd : d = pre.length ∨ d = (pre.length : Int) - (pre.length + 1 + post.length))
    (hs : ∀ t ∈ ts, ∃ n, t.shape = pre ++ n :: post) :
    ∃ r, concat ts d = some r ∧ r.shape = pre ++ catSize pre.length ts :: post ∧ r.Contig ∧
      ∀ a t b p x q, ts = a ++ t :: b → p.length = pre.length → InB t.shape (p ++ x :: q) →
        InB r.shape (p ++ (catSize pre.length a + x) :: q) ∧
        r.elem (p ++ (catSize pre.length a + x) :: q) = t.elem (p ++ x :: q) := by
  obtain ⟨t0, ts', rfl⟩ := List.exists_cons_of_ne_nil hne
  obtain ⟨n0, h0⟩ := hs t0 (by simp)
  set ts := t0 :: ts' with hts
  have hget : ∀ n, (pre ++ n :: post).getD pre.length 0 = n := by
    intro n; rw [List.getD_append_right _ _ _ _ (le_refl _)]; simp
  have hlen : t0.shape.length = pre.length + 1 + post.length := by rw [h0]; simp; omega
  have hnd : normDim t0.shape.length d = pre.length := by unfold normDim; split_ifs <;> omega
  have hset : t0.shape.set pre.length (catSize pre.length ts) = pre ++ catSize pre.length ts :: post := by
    rw [h0]; simp
  have htake : t0.shape.take pre.length = pre := by rw [h0]; simp
  have hdrop : t0.shape.drop (pre.length + 1) = post := by rw [h0]; simp [List.drop_append]
  have hchk : (ts.all (fun t => (List.range t0.shape.length).all fun k =>
      k == pre.length || t.shape.getD k 0 == t0.shape.getD k 0)
      && ts.all (fun t => t.shape.length == t0.shape.length)) = true := by
    simp only [Bool.and_eq_true, List.all_eq_true, Bool.or_eq_true, beq_iff_eq]
    refine ⟨fun t ht k hk => ?_, fun t ht => ?_⟩
    · obtain ⟨n, hn⟩ := hs t ht
      rw [hn, h0]
      by_cases hk' : k = pre.length
      · exact .inl hk'
      · right
        by_cases hlt : k < pre.length
        · rw [List.getD_append _ _ _ _ hlt, List.getD_append _ _ _ _ hlt]
        · rw [List.getD_append_right _ _ _ _ (by omega), List.getD_append_right _ _ _ _ (by omega)]
          obtain ⟨m, hm⟩ : ∃ m, k - pre.length = m + 1 := ⟨k - pre.length - 1, by omega⟩
          rw [hm]; simp
    · obtain ⟨n, hn⟩ := hs t ht
      rw [hn, h0]; simp
  let ws := if ts.all (fun t => (isContiguous t.shape t.stride).isSome) then
      catWritesC (numel pre) (numel post) (catSize pre.length ts) pre.length 0 ts
    else catWritesS (pre ++ catSize pre.length ts :: post) pre.length 0 ts
  have hmem : ∀ w, w ∈ ws ↔ ∃ a t b p x q, ts = a ++ t :: b ∧ p.length = pre.length ∧
      InB t.shape (p ++ x :: q) ∧
      w = (lin (pre ++ catSize pre.length ts :: post) (p ++ (catSize pre.length a + x) :: q),
        t.elem (p ++ x :: q)) := by
    intro w
    simp only [ws]
    split_ifs with hc
    · rw [mem_catWritesC ts 0 (fun t ht => ⟨isContiguous_some (List.all_eq_true.mp hc t ht), hs t ht⟩)]
      simp only [Nat.zero_add]
    · rw [mem_catWritesS ts 0 hs]
      simp only [Nat.zero_add]
  have hinb : ∀ a t b p x q, ts = a ++ t :: b → p.length = pre.length → InB t.shape (p ++ x :: q) →
      InB (pre ++ catSize pre.length ts :: post) (p ++ (catSize pre.length a + x) :: q) := by
    intro a t b p x q h1 h2 h3
    obtain ⟨n, hn⟩ := hs t (by rw [h1]; simp)
    rw [hn, inB_append _ _ _ _ h2] at h3
    rw [inB_append _ _ _ _ h2]
    refine ⟨h3.1, ?_, h3.2.2⟩
    have hb : catSize pre.length (t :: b) = n + catSize pre.length b := by
      simp only [catSize, List.map_cons, List.sum_cons, hn, hget]
    have : catSize pre.length ts = catSize pre.length a + (n + catSize pre.length b) := by
      rw [h1, catSize_append, hb]
    have hx := h3.2.1
    omega
  refine ⟨fresh (pre ++ catSize pre.length ts :: post) (bufV ws), ?_, rfl, fresh_contig _ _, ?_⟩
  · rw [hts]
    unfold concat
    simp only [hnd, ← hts]
    rw [if_neg (by omega), Int.toNat_natCast, if_pos hchk, hset, htake, hdrop]
  · intro a t b p x q h1 h2 h3
    have hin := hinb a t b p x q h1 h2 h3
    refine ⟨hin, (fresh_elem _ _ hin).trans ?_⟩
    apply bufV_eq
    · intro w hw hk
      obtain ⟨a', t', b', p', x', q', g1, g2, g3, rfl⟩ := (hmem w).mp hw
      simp only at hk ⊢
      have hin' := hinb a' t' b' p' x' q' g1 g2 g3
      have heq := lin_inj hin' hin hk
      obtain ⟨e1, e2⟩ := List.append_inj heq (by omega)
      simp only [List.cons.injEq] at e2
      have gx : ∀ (t : Tens α), t ∈ ts → ∀ p x q, p.length = pre.length → InB t.shape (p ++ x :: q) →
          x < t.shape.getD pre.length 0 := by
        intro t ht p x q hp hi
        obtain ⟨n, hn⟩ := hs t ht
        rw [hn, inB_append _ _ _ _ hp] at hi
        rw [hn, hget]; exact hi.2.1
      obtain ⟨_, e4, e5⟩ := cat_unique (dim := pre.length) a' a (g1.symm.trans h1)
        (gx t' (by rw [g1]; simp) _ _ _ g2 g3) (gx t (by rw [h1]; simp) _ _ _ h2 h3) e2.1
      rw [e4, e1, e5, e2.2]
    · exact (hmem _).mpr ⟨a, t, b, p, x, q, h1, h2, h3, rfl⟩

/-- C41, concat: conversely, every element of the result comes from exactly one input position (so
the previous theorem determines the whole result). -/
theorem concat_covers (ts : List (Tens α)) (pre post : List Nat)
    (hs : ∀ t ∈ ts, ∃ n, t.shape = pre ++ n :: post) (i : List Nat)
    (hi : InB (pre ++ catSize pre.length ts :: post) i) :
    ∃ a t b p x q, ts = a ++ t :: b ∧ p.length = pre.length ∧ InB t.shape (p ++ x :: q) ∧
      i = p ++ (catSize pre.length a + x) :: q := by
  obtain ⟨p, r, e1, e2, e3, e4⟩ := inB_split hi
  cases r with
  | nil => exact absurd e4 id
  | cons y q =>
    have hget : ∀ n, (pre ++ n :: post).getD pre.length 0 = n := by
      intro n; rw [List.getD_append_right _ _ _ _ (le_refl _)]; simp
    have key : ∀ (ts : List (Tens α)) (y : Nat), y < catSize pre.length ts →
        ∃ a t b x, ts = a ++ t :: b ∧ y = catSize pre.length a + x ∧ x < t.shape.getD pre.length 0 := by
      intro ts
      induction ts with
      | nil => intro y hy; simp [catSize] at hy
      | cons t ts ih =>
        intro y hy
        simp only [catSize, List.map_cons, List.sum_cons] at hy
        by_cases h : y < t.shape.getD pre.length 0
        · exact ⟨[], t, ts, y, rfl, by simp [catSize], h⟩
        · obtain ⟨a, u, b, x, h1, h2, h3⟩ := ih (y - t.shape.getD pre.length 0)
            (by simp only [catSize]; omega)
          refine ⟨t :: a, u, b, x, by simp [h1], ?_, h3⟩
          simp only [catSize, List.map_cons, List.sum_cons] at h2 ⊢
          omega
    obtain ⟨a, t, b, x, h1, h2, h3⟩ := key ts y e4.1
    obtain ⟨n, hn⟩ := hs t (by rw [h1]; simp)
    refine ⟨a, t, b, p, x, q, h1, e2, ?_, by rw [e1, h2]⟩
    rw [hn, inB_append _ _ _ _ e2]
    rw [hn, hget] at h3
    exact ⟨e3, h3, e4.2⟩

/-- C41, concat: mismatching shapes are refused. -/
theorem concat_refuses (t0 : Tens α) (ts : List (Tens α)) (d : Int) (t : Tens α) (ht : t ∈ ts) (k : Nat)
    (hk : k < t0.shape.length) (hkd : (k : Int) ≠ normDim t0.shape.length d)
    (hne : t.shape.getD k 0 ≠ t0.shape.getD k 0) : concat (t0 :: ts) d = none := by
  unfold concat
  simp only
  split_ifs with h1 h2
  · rfl
  · exfalso
    simp only [Bool.and_eq_true, List.all_eq_true, Bool.or_eq_true, beq_iff_eq] at h2
    rcases h2.1 t (by simp [ht]) k (List.mem_range.mpr hk) with h | h
    · apply hkd; omega
    · exact hne h
  · rfl

example : ∃ r, concat [fresh [2, 1] (fun k => some k), fresh [2, 3] (fun k => some (10 + k))] (-1)
    = some r ∧ r.shape = [2, 4] ∧ r.elem [1, 0] = some 1 ∧ r.elem [1, 3] = some 15 :=
  ⟨_, rfl, rfl, by decide +kernel, by decide +kernel⟩

/-! ### stack -/

theorem mem_stackWritesC {pre post : List Nat} {N : Nat} :
    ∀ (ts : List (Tens α)) (k : Nat), (∀ t ∈ ts, t.Contig ∧ t.shape = pre ++ post) →
    ∀ w, (w ∈ stackWritesC (numel pre) (numel post) N k ts ↔
      ∃ a t b p q, ts = a ++ t :: b ∧ p.length = pre.length ∧ InB t.shape (p ++ q) ∧
        w = (lin (pre ++ N :: post) (p ++ (k + a.length) :: q), t.elem (p ++ q)))
  | [], k, _, w => by simp [stackWritesC]
  | t :: ts, k, h, w => by
    obtain ⟨hc, hn⟩ := h t (by simp)
    have ih := mem_stackWritesC (N := N) ts (k + 1) (fun t ht => h t (by simp [ht])) w
    simp only [stackWritesC, List.mem_append, ih, List.mem_flatMap, List.mem_map, List.mem_range]
    constructor
    · rintro (⟨s, hs, e, he, rfl⟩ | ⟨a, u, b, p, q, h1, h2, h3, rfl⟩)
      · have cs := coords_spec hs
        have ce := coords_spec he
        have hin : InB t.shape (coords pre s ++ coords post e) := by
          rw [hn, inB_append _ _ _ _ cs.1.length]; exact ⟨cs.1, ce.1⟩
        refine ⟨[], t, ts, coords pre s, coords post e, rfl, cs.1.length, hin, ?_⟩
        rw [← hc.raw hin, hn, lin_append _ _ _ _ cs.1.length, lin_append _ _ _ _ cs.1.length, cs.2]
        simp only [numel, lin, ce.2, List.length_nil]
        congr 1
        ring
      · exact ⟨t :: a, u, b, p, q, by simp [h1], h2, h3, by
          simp only [List.length_cons]; rw [Nat.add_assoc, Nat.add_comm 1]⟩
    · rintro ⟨a, u, b, p, q, h1, h2, h3, rfl⟩
      cases a with
      | nil =>
        simp only [List.nil_append, List.cons.injEq] at h1
        obtain ⟨rfl, rfl⟩ := h1
        left
        have h3' := h3
        rw [hn, inB_append _ _ _ _ h2] at h3'
        refine ⟨lin pre p, lin_lt h3'.1, lin post q, lin_lt h3'.2, ?_⟩
        rw [← hc.raw h3, hn, lin_append _ _ _ _ h2, lin_append _ _ _ _ h2]
        simp only [numel, lin, List.length_nil]
        congr 1
        ring
      | cons t' a =>
        simp only [List.cons_append, List.cons.injEq] at h1
        obtain ⟨rfl, h1⟩ := h1
        right
        exact ⟨a, u, b, p, q, h1, h2, h3, by
          simp only [List.length_cons]; rw [Nat.add_assoc, Nat.add_comm 1]⟩

theorem mem_stackWritesS {pre post : List Nat} {N : Nat} :
    ∀ (ts : List (Tens α)) (k : Nat), (∀ t ∈ ts, t.shape = pre ++ post) →
    ∀ w, (w ∈ stackWritesS (pre ++ N :: post) pre.length k ts ↔
      ∃ a t b p q, ts = a ++ t :: b ∧ p.length = pre.length ∧ InB t.shape (p ++ q) ∧
        w = (lin (pre ++ N :: post) (p ++ (k + a.length) :: q), t.elem (p ++ q)))
  | [], k, _, w => by simp [stackWritesS]
  | t :: ts, k, h, w => by
    have hn := h t (by simp)
    have ih := mem_stackWritesS (N := N) ts (k + 1) (fun t ht => h t (by simp [ht])) w
    simp only [stackWritesS, List.mem_append, ih, List.mem_map, List.mem_range]
    constructor
    · rintro (⟨j, hj, rfl⟩ | ⟨a, u, b, p, q, h1, h2, h3, rfl⟩)
      · have cs := coords_spec hj
        have hcs : InB (pre ++ post) (coords t.shape j) := by rw [← hn]; exact cs.1
        obtain ⟨p, q, e1, e2, e3, e4⟩ := inB_split hcs
        refine ⟨[], t, ts, p, q, rfl, e2, by rw [← e1]; exact cs.1, ?_⟩
        rw [e1, List.take_left' e2, List.drop_left' e2]
        simp
      · exact ⟨t :: a, u, b, p, q, by simp [h1], h2, h3, by
          simp only [List.length_cons]; rw [Nat.add_assoc, Nat.add_comm 1]⟩
    · rintro ⟨a, u, b, p, q, h1, h2, h3, rfl⟩
      cases a with
      | nil =>
        simp only [List.nil_append, List.cons.injEq] at h1
        obtain ⟨rfl, rfl⟩ := h1
        left
        refine ⟨lin t.shape (p ++ q), lin_lt h3, ?_⟩
        rw [coords_lin h3, List.take_left' h2, List.drop_left' h2]
        simp
      | cons t' a =>
        simp only [List.cons_append, List.cons.injEq] at h1
        obtain ⟨rfl, h1⟩ := h1
        right
        exact ⟨a, u, b, p, q, h1, h2, h3, by
          simp only [List.length_cons]; rw [Nat.add_assoc, Nat.add_comm 1]⟩

/-- C41, stack. For equal shapes `pre ++ post` the result has shape `pre ++ N :: post`, and its element
`(p, k, q)` is element `(p, q)` of input `k`. -/
theorem stack_elements (ts : List (Tens α)) (hne : ts ≠ []) (pre post : List Nat) (d : Int)
    (hd : d = pre.length ∨ d = (pre.length : Int) - (pre.length + post.length + 1))
    (hs : ∀ t ∈ ts, t.shape = pre ++ post) :
    ∃ r, stack ts d = some r ∧ r.shape = pre ++ ts.length :: post ∧ r.Contig ∧
      ∀ k (hk : k < ts.length) p q, p.length = pre.length → InB (pre ++ post) (p ++ q) →
        InB r.shape (p ++ k :: q) ∧ r.elem (p ++ k :: q) = ts[k].elem (p ++ q) := by
  obtain ⟨t0, ts', rfl⟩ := List.exists_cons_of_ne_nil hne
  have h0 := hs t0 (by simp)
  set ts := t0 :: ts' with hts
  have hlen : t0.shape.length = pre.length + post.length := by rw [h0]; simp
  have hnd : normDim (t0.shape.length + 1) d = pre.length := by unfold normDim; split_ifs <;> omega
  have htake : t0.shape.take pre.length = pre := by rw [h0]; simp
  have hdrop : t0.shape.drop pre.length = post := by rw [h0]; simp
  have hchk : ts.all (fun t => t.shape == t0.shape) = true := by
    simp only [List.all_eq_true, beq_iff_eq]
    intro t ht; rw [hs t ht, h0]
  let ws := if ts.all (fun t => (isContiguous t.shape t.stride).isSome) then
      stackWritesC (numel pre) (numel post) ts.length 0 ts
    else stackWritesS (pre ++ ts.length :: post) pre.length 0 ts
  have hmem : ∀ w, w ∈ ws ↔ ∃ a t b p q, ts = a ++ t :: b ∧ p.length = pre.length ∧
      InB t.shape (p ++ q) ∧
      w = (lin (pre ++ ts.length :: post) (p ++ a.length :: q), t.elem (p ++ q)) := by
    intro w
    simp only [ws]
    split_ifs with hc
    · rw [mem_stackWritesC ts 0 (fun t ht => ⟨isContiguous_some (List.all_eq_true.mp hc t ht), hs t ht⟩)]
      simp only [Nat.zero_add]
    · rw [mem_stackWritesS ts 0 hs]
      simp only [Nat.zero_add]
  refine ⟨fresh (pre ++ ts.length :: post) (bufV ws), ?_, rfl, fresh_contig _ _, ?_⟩
  · rw [hts]
    unfold stack
    simp only [hnd, ← hts]
    rw [if_neg (by omega), if_pos hchk, Int.toNat_natCast, htake, hdrop]
  · intro k hk p q hp hi
    have hinp := (inB_append _ _ _ _ hp).mp hi
    have hin : InB (pre ++ ts.length :: post) (p ++ k :: q) := by
      rw [inB_append _ _ _ _ hp]; exact ⟨hinp.1, hk, hinp.2⟩
    refine ⟨hin, (fresh_elem _ _ hin).trans ?_⟩
    apply bufV_eq
    · intro w hw hke
      obtain ⟨a', t', b', p', q', g1, g2, g3, rfl⟩ := (hmem w).mp hw
      simp only at hke ⊢
      have g3' := g3
      rw [hs t' (by rw [g1]; simp), inB_append _ _ _ _ g2] at g3'
      have hin' : InB (pre ++ ts.length :: post) (p' ++ a'.length :: q') := by
        rw [inB_append _ _ _ _ g2]
        exact ⟨g3'.1, by rw [g1]; simp, g3'.2⟩
      have heq := lin_inj hin' hin hke
      obtain ⟨e1, e2⟩ := List.append_inj heq (by omega)
      simp only [List.cons.injEq] at e2
      have : ts[k] = t' := by
        have : ts[k]? = some t' := by rw [g1, ← e2.1]; simp
        exact (List.getElem?_eq_some_iff.mp this).2
      rw [this, e1, e2.2]
    · refine (hmem _).mpr ⟨ts.take k, ts[k], ts.drop (k + 1), p, q, ?_, hp, ?_, ?_⟩
      · simp
      · rw [hs _ (List.getElem_mem hk)]; exact hi
      · simp only [List.length_take, Nat.min_eq_left (Nat.le_of_lt hk)]

example : ∃ r, stack [fresh [2] (fun k => some k), fresh [2] (fun k => some (10 + k))] 1
    = some r ∧ r.shape = [2, 2] ∧ r.elem [1, 0] = some 1 ∧ r.elem [0, 1] = some 10 :=
  ⟨_, rfl, rfl, by decide +kernel, by decide +kernel⟩

/-! ### split -/

theorem splitViews_get (t : Tens α) (dim : Nat) : ∀ (ks : List Nat) (sum i : Nat) (h : i < ks.length),
    (splitViews t dim sum ks)[i]? = some ⟨t.off + ((sum + (ks.take i).sum : Nat) : Int) *
      t.stride.getD dim 0, t.shape.set dim ks[i], t.stride, t.mem⟩
  | k :: ks, sum, 0, _ => by simp [splitViews]
  | k :: ks, sum, i + 1, h => by
    rw [splitViews, List.getElem?_cons_succ, splitViews_get t dim ks (sum + k) i (by simpa using h)]
    simp [Nat.add_assoc]

theorem splitViews_length (t : Tens α) (dim : Nat) : ∀ (ks : List Nat) (sum : Nat),
    (splitViews t dim sum ks).length = ks.length
  | [], _ => rfl
  | k :: ks, sum => by simp [splitViews, splitViews_length t dim ks]

theorem dot_set : ∀ (i : List Nat) (s : List Int) (k : Nat) (x y : Nat), k < i.length → k < s.length →
    i.getD k 0 = x → dot (i.set k (y + x)) s = dot i s + (y : Int) * s.getD k 0
  | a :: i, b :: s, 0, x, y, _, _, h => by
    simp only [List.getD_cons_zero] at h
    subst h
    simp only [List.set_cons_zero, dot, List.getD_cons_zero]
    push_cast; ring
  | a :: i, b :: s, k + 1, x, y, h1, h2, h => by
    simp only [List.set_cons_succ, dot, List.getD_cons_succ]
    rw [dot_set i s k x y (by simpa using h1) (by simpa using h2) (by simpa using h)]
    ring

/-- C41, split. For any view (row-major or strided): the sections requested (or `n/size` equal
sections) partition the dimension, every part shares the storage, and element `(p, x, q)` of part `i`
is element `(p, (sections before i) + x, q)` of the input, inside the input. -/
theorem split_elements (t : Tens α) (pre post : List Nat) (n : Nat) (hs : t.shape = pre ++ n :: post)
    (hl : t.stride.length = t.shape.length) (d : Int)
    (hd : d = pre.length ∨ d = (pre.length : Int) - (pre.length + 1 + post.length))
    (sizes : List Nat) (rs : List (Tens α)) (h : split t sizes d = some rs) :
    ∃ secs : List Nat, secs.sum = n ∧ rs.length = secs.length ∧
      (secs = sizes ∨ ∃ k, sizes = [k] ∧ secs = List.replicate (n / k) k) ∧
      ∀ i (hi : i < secs.length), ∃ r, rs[i]? = some r ∧ r.mem = t.mem ∧
        r.shape = pre ++ secs[i] :: post ∧
        ∀ p x q, p.length = pre.length → InB r.shape (p ++ x :: q) →
          InB t.shape (p ++ ((secs.take i).sum + x) :: q) ∧
          r.elem (p ++ x :: q) = t.elem (p ++ ((secs.take i).sum + x) :: q) := by
  have hnd : normDim t.shape.length d = pre.length := by
    have : t.shape.length = pre.length + 1 + post.length := by rw [hs]; simp; omega
    unfold normDim; split_ifs <;> omega
  have hget : t.shape.getD pre.length 0 = n := by
    rw [hs, List.getD_append_right _ _ _ _ (le_refl _)]; simp
  unfold split at h
  simp only [hnd] at h
  rw [if_neg (by rw [hs]; simp), Int.toNat_natCast, hget] at h
  cases hsec : splitSections n sizes with
  | none => rw [hsec] at h; simp at h
  | some secs =>
    rw [hsec] at h
    simp only [Option.map_some, Option.some.injEq] at h
    have hsum : secs.sum = n ∧ (secs = sizes ∨ ∃ k, sizes = [k] ∧ secs = List.replicate (n / k) k) := by
      match sizes, hsec with
      | [], hsec =>
        simp only [splitSections] at hsec
        split_ifs at hsec with h1
        simp only [Option.some.injEq] at hsec
        subst hsec; exact ⟨h1, .inl rfl⟩
      | [k], hsec =>
        simp only [splitSections] at hsec
        split_ifs at hsec with h1 h2
        simp only [Option.some.injEq] at hsec
        subst hsec
        refine ⟨?_, .inr ⟨k, rfl, rfl⟩⟩
        rw [show (List.replicate (n / k) k).sum = n / k * k by simp]
        have := Nat.div_add_mod n k
        rw [Nat.mul_comm]; omega
      | a :: b :: l, hsec =>
        simp only [splitSections] at hsec
        split_ifs at hsec with h1
        simp only [Option.some.injEq] at hsec
        subst hsec; exact ⟨h1, .inl rfl⟩
    refine ⟨secs, hsum.1, by rw [← h, splitViews_length], hsum.2, fun i hi => ?_⟩
    have hv := splitViews_get t pre.length secs 0 i hi
    rw [h] at hv
    refine ⟨_, hv, rfl, by simp [hs], ?_⟩
    intro p x q hp hin
    have hshape : t.shape.set pre.length secs[i] = pre ++ secs[i] :: post := by rw [hs]; simp
    rw [hshape, inB_append _ _ _ _ hp] at hin
    constructor
    · rw [hs, inB_append _ _ _ _ hp]
      refine ⟨hin.1, ?_, hin.2.2⟩
      have h1 : (secs.take i).sum + (secs.drop i).sum = secs.sum := by
        rw [← List.sum_append, List.take_append_drop]
      have h2 : (secs.drop i).sum = secs[i] + (secs.drop (i + 1)).sum := by
        rw [List.drop_eq_getElem_cons hi, List.sum_cons]
      have := hin.2.1
      omega
    · have e : p ++ ((secs.take i).sum + x) :: q =
          (p ++ x :: q).set pre.length ((secs.take i).sum + x) := by rw [← hp]; simp
      have hgx : (p ++ x :: q).getD pre.length 0 = x := by
        rw [← hp, List.getD_append_right _ _ _ _ (le_refl _)]; simp
      have hlen : pre.length < (p ++ x :: q).length := by simp; omega
      have hlen2 : pre.length < t.stride.length := by rw [hl, hs]; simp
      have hdot := dot_set (p ++ x :: q) t.stride pre.length x (secs.take i).sum hlen hlen2 hgx
      simp only [Tens.elem, Tens.addr]
      rw [e, hdot]
      congr 1
      simp only [Nat.zero_add]
      ring

/-- C41. Splitting and concatenating again gives back every element. -/
theorem concat_split (t : Tens α) (pre post : List Nat) (n : Nat) (hs : t.shape = pre ++ n :: post)
    (hl : t.stride.length = t.shape.length) (d : Int)
    (hd : d = pre.length ∨ d = (pre.length : Int) - (pre.length + 1 + post.length))
    (sizes : List Nat) (rs : List (Tens α)) (h : split t sizes d = some rs) (hne : rs ≠ []) :
    ∃ r, concat rs d = some r ∧ r.shape = t.shape ∧ ∀ i, InB t.shape i → r.elem i = t.elem i := by
  obtain ⟨secs, h1, h2, -, h4⟩ := split_elements t pre post n hs hl d hd sizes rs h
  have hget : ∀ n, (pre ++ n :: post).getD pre.length 0 = n := by
    intro n; rw [List.getD_append_right _ _ _ _ (le_refl _)]; simp
  have hshapes : ∀ r ∈ rs, ∃ m, r.shape = pre ++ m :: post := by
    intro r hr
    obtain ⟨i, hi, rfl⟩ := List.getElem_of_mem hr
    obtain ⟨r', g1, -, g3, -⟩ := h4 i (by omega)
    rw [List.getElem?_eq_getElem hi, Option.some.injEq] at g1
    exact ⟨_, g1 ▸ g3⟩
  have hmap : rs.map (fun r => r.shape.getD pre.length 0) = secs := by
    apply List.ext_getElem
    · simp [h2]
    · intro i a1 a2
      obtain ⟨r', g1, -, g3, -⟩ := h4 i a2
      rw [List.getElem?_eq_getElem (by simpa using a1), Option.some.injEq] at g1
      rw [List.getElem_map, g1, g3, hget]
  obtain ⟨r, k1, k2, k3, k4⟩ := concat_elements rs hne pre post d hd hshapes
  have hcat : catSize pre.length rs = n := by rw [catSize, hmap, h1]
  refine ⟨r, k1, by rw [k2, hcat, hs], fun i hi => ?_⟩
  rw [hs, ← hcat] at hi
  obtain ⟨a, u, b, p, x, q, e1, e2, e3, e4⟩ := concat_covers rs pre post hshapes i hi
  obtain ⟨_, g⟩ := k4 a u b p x q e1 e2 e3
  rw [e4, g]
  have hi' : a.length < secs.length := by rw [← h2, e1]; simp
  obtain ⟨u', g1, -, -, g4⟩ := h4 a.length hi'
  have : u' = u := by rw [e1] at g1; simpa using g1.symm
  subst this
  have htake : (secs.take a.length).sum = catSize pre.length a := by
    rw [← hmap, e1, List.map_append, List.take_left' (by simp)]; rfl
  rw [(g4 p x q e2 e3).2, htake]

example : ∃ rs, split (fresh [2, 4] (fun k => some k)) [1, 3] 1 = some rs ∧
    ∃ r, rs[1]? = some r ∧ r.elem [1, 2] = some 7 := ⟨_, rfl, _, rfl, by decide +kernel⟩

/-! ### repeat -/

/-- C41, repeat. On a row-major tensor, entry `x` of the repeated dimension becomes the entries
`x*m, …, x*m + m-1` of the result. -/
theorem repeat_elements_partial (t : Tens α) (pre post : List Nat) (n m : Nat)
    (hs : t.shape = pre ++ n :: post) (hc : t.Contig) :
    ∃ r, repeatOp t m pre.length = some r ∧ r.shape = pre ++ (n * m) :: post ∧ r.Contig ∧
      ∀ p x q j, p.length = pre.length → InB t.shape (p ++ x :: q) → j < m →
        InB r.shape (p ++ (x * m + j) :: q) ∧ r.elem (p ++ (x * m + j) :: q) = t.elem (p ++ x :: q) := by
  have hget : t.shape.getD pre.length 0 = n := by
    rw [hs, List.getD_append_right _ _ _ _ (le_refl _)]; simp
  have hset : t.shape.set pre.length (n * m) = pre ++ (n * m) :: post := by rw [hs]; simp
  have htake : t.shape.take pre.length = pre := by rw [hs]; simp
  have hdrop : t.shape.drop (pre.length + 1) = post := by rw [hs]; simp [List.drop_append]
  let ws : List (Nat × Option α) := (List.range (numel pre)).flatMap fun o => (List.range n).flatMap fun x =>
        (List.range m).flatMap fun j => (List.range (numel post)).map fun e =>
          (o * (n * m * numel post) + x * m * numel post + j * numel post + e,
            t.raw (o * (n * numel post) + x * numel post + e))
  refine ⟨fresh (pre ++ (n * m) :: post) (bufV ws), ?_, rfl, fresh_contig _ _, ?_⟩
  · unfold repeatOp
    rw [if_neg (by rw [hs]; simp)]
    simp only [Int.toNat_natCast, hget, hset, htake, hdrop]
    rfl
  · intro p x q j hp hin hj
    have hin' := hin
    rw [hs, inB_append _ _ _ _ hp] at hin'
    have hlt : ∀ x j, x < n → j < m → x * m + j < n * m := by
      intro x j hx hj
      have : (x + 1) * m ≤ n * m := Nat.mul_le_mul_right _ hx
      rw [Nat.succ_mul] at this; omega
    have hr : InB (pre ++ (n * m) :: post) (p ++ (x * m + j) :: q) := by
      rw [inB_append _ _ _ _ hp]
      exact ⟨hin'.1, hlt x j hin'.2.1 hj, hin'.2.2⟩
    refine ⟨hr, (fresh_elem _ _ hr).trans ?_⟩
    have hdst : ∀ (p q : List Nat) (x j : Nat), p.length = pre.length →
        lin (pre ++ (n * m) :: post) (p ++ (x * m + j) :: q) =
        lin pre p * (n * m * numel post) + x * m * numel post + j * numel post + lin post q := by
      intro p q x j hp
      rw [lin_append _ _ _ _ hp]; simp only [lin, numel]; ring
    have hsrc : ∀ (p q : List Nat) (x : Nat), p.length = pre.length →
        lin t.shape (p ++ x :: q) = lin pre p * (n * numel post) + x * numel post + lin post q := by
      intro p q x hp
      rw [hs, lin_append _ _ _ _ hp]; simp only [lin, numel]; ring
    have hmem : ∀ w, w ∈ ws ↔ ∃ o, o < numel pre ∧ ∃ x, x < n ∧ ∃ j, j < m ∧ ∃ e, e < numel post ∧
        (o * (n * m * numel post) + x * m * numel post + j * numel post + e,
            t.raw (o * (n * numel post) + x * numel post + e)) = w := by
      intro w
      simp only [ws, List.mem_flatMap, List.mem_map, List.mem_range]
    apply bufV_eq
    · intro w hw hk
      obtain ⟨o, ho, x', hx', j', hj', e, he, rfl⟩ := (hmem w).mp hw
      simp only at hk ⊢
      have co := coords_spec ho
      have ce := coords_spec he
      have hk' : lin (pre ++ (n * m) :: post) (coords pre o ++ (x' * m + j') :: coords post e) =
          lin (pre ++ (n * m) :: post) (p ++ (x * m + j) :: q) := by
        rw [hdst _ _ _ _ co.1.length, co.2, ce.2, hk]
      have hin2 : InB (pre ++ (n * m) :: post) (coords pre o ++ (x' * m + j') :: coords post e) := by
        rw [inB_append _ _ _ _ co.1.length]
        exact ⟨co.1, hlt x' j' hx' hj', ce.1⟩
      obtain ⟨e1, e2⟩ := List.append_inj (lin_inj hin2 hr hk') (by rw [co.1.length, hp])
      simp only [List.cons.injEq] at e2
      have ex : x' = x := by
        have a1 : (x' * m + j') / m = x' := by
          rw [Nat.add_comm, Nat.add_mul_div_right _ _ (by omega), Nat.div_eq_of_lt hj']; omega
        have a2 : (x * m + j) / m = x := by
          rw [Nat.add_comm, Nat.add_mul_div_right _ _ (by omega), Nat.div_eq_of_lt hj]; omega
        rw [← a1, e2.1, a2]
      subst ex
      rw [← hc.raw hin, hsrc _ _ _ hp, ← e1, ← e2.2, co.2, ce.2]
    · refine (hmem _).mpr ⟨lin pre p, lin_lt hin'.1, x, hin'.2.1, j, hj, lin post q, lin_lt hin'.2.2, ?_⟩
      rw [hdst _ _ _ _ hp, ← hc.raw hin, hsrc _ _ _ hp]

example : ∃ r, repeatOp (fresh [2, 2] (fun k => some k)) 3 0 = some r ∧ r.shape = [6, 2] ∧
    r.elem [4, 1] = some 3 := ⟨_, rfl, rfl, by decide +kernel⟩

/-- C41 is violated for `repeat` of a view that is not row-major: strides are ignored. -/
theorem repeat_view_violated : ∃ (t r : Tens Nat),
    (split (fresh [2, 2] (fun k => some k)) [1, 1] 1 >>= fun rs => rs[0]?) = some t ∧
    repeatOp t 1 0 = some r ∧ InB t.shape [1, 0] ∧ r.elem [1, 0] ≠ t.elem [1, 0] :=
  ⟨_, _, rfl, rfl, ⟨by decide, by decide, trivial⟩, by decide +kernel⟩

end Verif.Tensor
