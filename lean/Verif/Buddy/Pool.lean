import Verif.Buddy.SegOps
/-
Invariant of the whole pool.
-/
namespace Verif.Buddy

/-- Options that make the first segment a power of two (the code only asserts
`ceil(log2(cap)) = max_order`, BuddyMemPool.cpp L35). -/
structure GoodOpts (o : Opts) : Prop where
  cap : o.firstCap = 2 ^ o.maxO
  ord : o.minO ≤ o.maxO
  small : o.minO ≤ 29

/-- blocks of segment `base` that are handed out or parked in the object cache -/
def busyOf (p : Pool) (base : Nat) : List Block :=
  ((p.st.map (·.2) ++ p.cache.map (·.2)).filter (fun x => x.1 = base)).map (·.2)

structure PoolInv (p : Pool) : Prop where
  opts : GoodOpts p.opts
  keys : (p.segs.map (·.1)).Nodup
  seg : ∀ x ∈ p.segs, SegInv x.2 (busyOf p x.1) ∧ x.2.minO = p.opts.minO
  home : ∀ x ∈ p.st.map (·.2) ++ p.cache.map (·.2), x.1 ∈ p.segs.map (·.1)
  key : ∀ x ∈ p.cache, x.1 = x.2.2.size
  apart : p.segs.Pairwise (fun x y => x.1 + x.2.cap ≤ y.1 ∨ y.1 + y.2.cap ≤ x.1)
  uuids : (p.st.map (·.1)).Nodup
  ne : p.segs ≠ []
  pos : ∀ x ∈ p.segs, 0 < x.1

theorem trySegs_some {segs : List (Nat × Seg)} {req : Nat} {r} (h : trySegs segs req = some r) :
    ∃ pre s post s', segs = pre ++ (r.2.1, s) :: post ∧ r.1 = pre ++ (r.2.1, s') :: post ∧
      allocSeg s req = some (s', r.2.2) := by
  induction segs generalizing r with
  | nil => simp [trySegs] at h
  | cons x ss ih =>
    obtain ⟨base, s⟩ := x
    simp only [trySegs] at h
    split at h
    · next s' b he =>
      simp at h
      subst h
      exact ⟨[], s, ss, s', rfl, rfl, he⟩
    · next he =>
      cases ht : trySegs ss req with
      | none => rw [ht] at h; simp at h
      | some r' =>
        rw [ht] at h
        simp at h
        subst h
        obtain ⟨pre, t, post, t', h1, h2, h3⟩ := ih ht
        exact ⟨(base, s) :: pre, t, post, t', by simp [← h1], by simp [← h2], h3⟩

theorem trySegs_none {segs : List (Nat × Seg)} {req : Nat} :
    trySegs segs req = none ↔ ∀ x ∈ segs, allocSeg x.2 req = none := by
  induction segs with
  | nil => simp [trySegs]
  | cons x ss ih =>
    obtain ⟨base, s⟩ := x
    simp only [trySegs]
    split
    · next s' b he => simp [he]
    · next he => simp [he, ih]

theorem freeIn_split (base : Nat) (b : Block) (segs : List (Nat × Seg))
    (hk : base ∈ segs.map (·.1)) :
    ∃ pre s post, segs = pre ++ (base, s) :: post ∧
      freeIn base b segs = pre ++ (base, freeSeg s b) :: post := by
  induction segs with
  | nil => simp at hk
  | cons x ss ih =>
    obtain ⟨a, s⟩ := x
    by_cases ha : a = base
    · subst ha
      exact ⟨[], s, ss, rfl, by simp [freeIn]⟩
    · simp only [List.map_cons, List.mem_cons] at hk
      rcases hk with hk | hk
      · exact absurd hk.symm ha
      · obtain ⟨pre, t, post, h1, h2⟩ := ih hk
        exact ⟨(a, s) :: pre, t, post, by simp [← h1], by simp [freeIn, ha, h2]⟩

theorem mem_insertSeg {base : Nat} {s : Seg} {segs : List (Nat × Seg)}
    (h : base ∉ segs.map (·.1)) : (insertSeg base s segs).Perm ((base, s) :: segs) := by
  induction segs with
  | nil => simp [insertSeg]
  | cons x ss ih =>
    obtain ⟨a, t⟩ := x
    simp only [List.map_cons, List.mem_cons, not_or] at h
    simp only [insertSeg]
    split
    · exact List.Perm.refl _
    · rw [if_neg h.1]
      exact ((ih h.2).cons _).trans (List.Perm.swap _ _ _)

theorem SegInv.perm {s : Seg} {L L' : List Block} (h : SegInv s L) (hp : L.Perm L') : SegInv s L' :=
  ⟨h.cap, h.ord, h.tile.perm hp, h.nb, by rw [h.used]; exact (hp.map _).sum_eq⟩

theorem prevCap_spec (p : Pool) (h : p.segs ≠ []) :
    (∃ x ∈ p.segs, prevCap p = 2 ^ x.2.maxO) ∧ ∀ x ∈ p.segs, 2 ^ x.2.maxO ≤ prevCap p := by
  have key : ∀ (l : List Nat) (a : Nat), (l.foldl max a = a ∨ l.foldl max a ∈ l) ∧
      (∀ x ∈ l, x ≤ l.foldl max a) ∧ a ≤ l.foldl max a := by
    intro l
    induction l with
    | nil => simp
    | cons y l ih =>
      intro a
      obtain ⟨h1, h2, h3⟩ := ih (max a y)
      refine ⟨?_, ?_, ?_⟩
      · simp only [List.foldl_cons, List.mem_cons]
        rcases h1 with h1 | h1
        · rw [h1]
          rcases le_total a y with h | h
          · right; left; omega
          · left; omega
        · exact Or.inr (Or.inr h1)
      · simp only [List.foldl_cons, List.mem_cons]
        rintro x (rfl | hx)
        · omega
        · exact h2 x hx
      · simp only [List.foldl_cons]; omega
  obtain ⟨h1, h2, h3⟩ := key (p.segs.map (fun x => 2 ^ x.2.maxO)) 0
  unfold prevCap
  have hall : ∀ x ∈ p.segs, 2 ^ x.2.maxO ≤ (p.segs.map (fun x => 2 ^ x.2.maxO)).foldl max 0 :=
    fun x hx => h2 _ (List.mem_map.mpr ⟨x, hx, rfl⟩)
  refine ⟨?_, hall⟩
  rcases h1 with h1 | h1
  · exfalso
    obtain ⟨x, hx⟩ := List.exists_mem_of_ne_nil _ h
    have := hall x hx
    have := Nat.two_pow_pos x.2.maxO
    omega
  · obtain ⟨x, hx, he⟩ := List.mem_map.mp h1
    exact ⟨x, hx, he.symm⟩

/-- capacity of the next segment -/
def nextCap (p : Pool) : Nat := min (prevCap p * 2) (2 ^ 29)

/-- The OS answers successive segment requests with fresh, non-null, non-overlapping memory. -/
def OsOk : Pool → List (Option Nat) → Prop
  | _, [] => True
  | _, none :: _ => False
  | p, some a :: os => 0 < a ∧ (∀ x ∈ p.segs, a + nextCap p ≤ x.1 ∨ x.1 + x.2.cap ≤ a) ∧
      OsOk (expand p (some a)) os

theorem nextCap_pow {p : Pool} (h : PoolInv p) :
    ∃ M, nextCap p = 2 ^ M ∧ p.opts.minO ≤ M ∧ M ≤ 29 ∧ (∀ x ∈ p.segs, x.2.maxO + 1 ≤ M ∨ M = 29) := by
  obtain ⟨⟨x, hx, hp⟩, hall⟩ := prevCap_spec p h.ne
  have h1 := (h.seg x hx).1.ord
  rw [(h.seg x hx).2] at h1
  have hmx : ∀ y ∈ p.segs, y.2.maxO ≤ x.2.maxO := by
    intro y hy
    have := hall y hy
    rw [hp] at this
    exact (Nat.pow_le_pow_iff_right (by omega)).mp this
  unfold nextCap
  rw [hp, ← pow_succ]
  by_cases hle : x.2.maxO + 1 ≤ 29
  · refine ⟨x.2.maxO + 1, min_eq_left (Nat.pow_le_pow_right (by omega) hle), by omega, hle, ?_⟩
    intro y hy
    have := hmx y hy
    exact Or.inl (by omega)
  · exact ⟨29, min_eq_right (Nat.pow_le_pow_right (by omega) (by omega)), h.opts.small, le_refl _,
      fun _ _ => Or.inr rfl⟩

theorem expand_spec {p : Pool} (h : PoolInv p) {a : Nat} (ha : 0 < a)
    (hd : ∀ x ∈ p.segs, a + nextCap p ≤ x.1 ∨ x.1 + x.2.cap ≤ a) :
    PoolInv (expand p (some a)) ∧
    ∃ M, nextCap p = 2 ^ M ∧
      (expand p (some a)).segs.Perm ((a, newSeg (2 ^ M) p.opts.minO M) :: p.segs) := by
  obtain ⟨M, hM, hm, hM29, _⟩ := nextCap_pow h
  have hpos : 0 < nextCap p := by rw [hM]; exact Nat.two_pow_pos M
  have hcapos : ∀ x ∈ p.segs, 0 < x.2.cap := by
    intro x hx
    rw [(h.seg x hx).1.cap]; exact Nat.two_pow_pos _
  have hnk : a ∉ p.segs.map (·.1) := by
    intro hmem
    obtain ⟨x, hx, rfl⟩ := List.mem_map.mp hmem
    have := hd x hx
    have := hcapos x hx
    omega
  have hperm : (expand p (some a)).segs.Perm ((a, newSeg (2 ^ M) p.opts.minO M) :: p.segs) := by
    unfold expand
    simp only [Option.getD_some]
    have := mem_insertSeg (s := newSeg (2 ^ M) p.opts.minO M) hnk
    rw [show min (prevCap p * 2) (2 ^ 29) = 2 ^ M from hM, Nat.clog_pow 2 _ (by omega)]
    exact this
  have hbusy : ∀ base, busyOf (expand p (some a)) base = busyOf p base := fun _ => rfl
  refine ⟨⟨h.opts, ?_, ?_, ?_, h.key, ?_, h.uuids, ?_, ?_⟩, M, hM, hperm⟩
  · rw [(hperm.map (·.1)).nodup_iff]
    exact List.nodup_cons.mpr ⟨hnk, h.keys⟩
  · intro x hx
    rw [hbusy]
    rcases List.mem_cons.mp (hperm.mem_iff.mp hx) with rfl | hx
    · refine ⟨?_, rfl⟩
      have : busyOf p a = [] := by
        unfold busyOf
        rw [List.map_eq_nil_iff, List.filter_eq_nil_iff]
        intro y hy
        simp only [decide_eq_true_eq]
        rintro rfl
        exact hnk (h.home y hy)
      simp only [this]
      exact newSeg_inv _ _ hm
    · exact h.seg x hx
  · intro x hx
    rw [(hperm.map (·.1)).mem_iff]
    exact List.mem_cons_of_mem _ (h.home x hx)
  · rw [hperm.pairwise_iff (by intro x y hxy; exact hxy.symm)]
    refine List.pairwise_cons.mpr ⟨?_, h.apart⟩
    intro y hy
    have := hd y hy
    simp only [newSeg]
    omega
  · intro he
    have := hperm.length_eq
    rw [he] at this
    simp at this
  · intro x hx
    rcases List.mem_cons.mp (hperm.mem_iff.mp hx) with rfl | hx
    · exact ha
    · exact h.pos x hx

/-- like `PoolInv` while one block `(base, b)` has been taken but not yet registered -/
structure Pending (p : Pool) (base : Nat) (b : Block) : Prop where
  inv : ∀ uuid, uuid ∉ p.st.map (·.1) → PoolInv { p with st := (uuid, base, b) :: p.st }

theorem trySegs_spec {p : Pool} (h : PoolInv p) {req : Nat} {r} (ht : trySegs p.segs req = some r) :
    Pending { p with segs := r.1 } r.2.1 r.2.2 ∧ req ≤ r.2.2.size := by
  obtain ⟨pre, s, post, s', h1, h2, h3⟩ := trySegs_some ht
  obtain ⟨segs', base, b⟩ := r
  simp only at h1 h2 h3 ⊢
  have hs := h.seg (base, s) (by rw [h1]; simp)
  obtain ⟨a1, a2, a3, a4, a5, a6⟩ := allocSeg_spec hs.1 h3
  have hkeys : segs'.map (·.1) = p.segs.map (·.1) := by rw [h1, h2]; simp
  refine ⟨⟨fun uuid hu => ⟨h.opts, ?_, ?_, ?_, h.key, ?_, ?_, ?_, ?_⟩⟩, a2⟩
  · simp only; rw [hkeys]; exact h.keys
  · intro x hx
    simp only at hx
    rw [h2] at hx
    have hk := h.keys
    rw [h1] at hk
    simp only [List.map_append, List.map_cons, List.nodup_append, List.nodup_cons] at hk
    by_cases hxb : x.1 = base
    · have : x = (base, s') := by
        simp only [List.mem_append, List.mem_cons] at hx
        rcases hx with hx | rfl | hx
        · exfalso
          exact hk.2.2 x.1 (List.mem_map.mpr ⟨x, hx, rfl⟩) base (by simp) hxb
        · rfl
        · exfalso
          exact hk.2.1.1 (List.mem_map.mpr ⟨x, hx, hxb⟩)
      subst this
      simp only
      refine ⟨?_, by rw [a4]; exact hs.2⟩
      have : busyOf { p with segs := segs', st := (uuid, base, b) :: p.st } base
          = b :: busyOf p base := by simp [busyOf]
      rw [this]; exact a1
    · have hx' : x ∈ p.segs := by
        rw [h1]
        simp only [List.mem_append, List.mem_cons] at hx ⊢
        rcases hx with hx | rfl | hx
        · exact Or.inl hx
        · exact absurd rfl hxb
        · exact Or.inr (Or.inr hx)
      have : busyOf { p with segs := segs', st := (uuid, base, b) :: p.st } x.1 = busyOf p x.1 := by
        have : ¬ base = x.1 := fun e => hxb e.symm
        simp [busyOf, this]
      rw [this]
      exact h.seg x hx'
  · intro x hx
    simp only [List.map_cons, List.cons_append, List.mem_cons] at hx
    simp only
    rw [hkeys]
    rcases hx with rfl | hx
    · rw [h1]; simp
    · exact h.home x hx
  · have hp := h.apart
    rw [h1] at hp
    simp only
    rw [h2]
    rw [List.pairwise_append, List.pairwise_cons] at hp ⊢
    obtain ⟨p1, ⟨p2, p3⟩, p4⟩ := hp
    refine ⟨p1, ⟨fun y hy => by have := p2 y hy; simp only at this ⊢; rw [a6]; exact this, p3⟩, ?_⟩
    intro x hx y hy
    rcases List.mem_cons.mp hy with rfl | hy
    · have := p4 x hx (base, s) (by simp)
      simp only at this ⊢
      rw [a6]; exact this
    · exact p4 x hx y (by simp [hy])
  · exact List.nodup_cons.mpr ⟨hu, h.uuids⟩
  · simp [h2]
  · intro x hx
    simp only at hx
    have : x.1 ∈ p.segs.map (·.1) := by rw [← hkeys]; exact List.mem_map.mpr ⟨x, hx, rfl⟩
    obtain ⟨y, hy, he⟩ := List.mem_map.mp this
    rw [← he]; exact h.pos y hy

theorem allocBuddy_spec {p : Pool} (h : PoolInv p) {req : Nat} {os : List (Option Nat)} {r}
    (hos : OsOk p os) (ha : allocBuddy p req os = some r) :
    Pending r.1 r.2.1 r.2.2 ∧ req ≤ r.2.2.size ∧ r.1.st = p.st ∧ r.1.cache = p.cache ∧
      r.1.opts = p.opts := by
  induction os generalizing p with
  | nil =>
    simp only [allocBuddy, Option.map_eq_some_iff] at ha
    obtain ⟨q, hq, rfl⟩ := ha
    obtain ⟨h1, h2⟩ := trySegs_spec h hq
    exact ⟨h1, h2, rfl, rfl, rfl⟩
  | cons a os ih =>
    simp only [allocBuddy] at ha
    split at ha
    · next q hq =>
      simp at ha
      subst ha
      obtain ⟨h1, h2⟩ := trySegs_spec h hq
      exact ⟨h1, h2, rfl, rfl, rfl⟩
    · cases a with
      | none => exact absurd hos (by simp [OsOk])
      | some a =>
        obtain ⟨o1, o2, o3⟩ := hos
        exact ih (p := expand p (some a)) (expand_spec h o1 o2).1 o3 ha

theorem alloc_spec {p : Pool} (h : PoolInv p) {uuid req : Nat} {os : List (Option Nat)} {r}
    (hu : uuid ∉ p.st.map (·.1)) (hos : OsOk p os) (ha : alloc p uuid req os = some r) :
    PoolInv r.1 ∧ req ≤ r.2.2.size ∧ r.1.st = (uuid, r.2) :: p.st ∧ r.1.opts = p.opts := by
  have hb : ∀ r', (allocBuddy p req os).map (fun r => ({ r.1 with st := (uuid, r.2) :: r.1.st }, r.2))
      = some r' → PoolInv r'.1 ∧ req ≤ r'.2.2.size ∧ r'.1.st = (uuid, r'.2) :: p.st ∧
        r'.1.opts = p.opts := by
    intro r' hr
    simp only [Option.map_eq_some_iff] at hr
    obtain ⟨q, hq, rfl⟩ := hr
    obtain ⟨h1, h2, h3, h4, h5⟩ := allocBuddy_spec h hos hq
    exact ⟨h1.inv uuid (by rw [h3]; exact hu), h2, by simp [h3], h5⟩
  unfold alloc at ha
  split at ha
  · split at ha
    · next x hx =>
      simp at ha
      subst ha
      have hmem := List.mem_of_find?_eq_some hx
      have hkey := List.find?_some hx
      simp only [beq_iff_eq] at hkey
      have hp := List.perm_cons_erase hmem
      have hsz := h.key x hmem
      have hpp : (p.st.map (·.2) ++ p.cache.map (·.2)).Perm
          (x.2 :: (p.st.map (·.2) ++ (p.cache.erase x).map (·.2))) := by
        refine ((hp.map (·.2)).append_left _).trans ?_
        simp only [List.map_cons]
        exact List.perm_middle
      refine ⟨⟨h.opts, h.keys, ?_, ?_, fun y hy => h.key y (List.mem_of_mem_erase hy), h.apart, ?_,
        h.ne, h.pos⟩, by simp only; omega, rfl, rfl⟩
      · intro y hy
        refine ⟨(h.seg y hy).1.perm ?_, (h.seg y hy).2⟩
        unfold busyOf
        simpa using (hpp.filter (fun z => decide (z.1 = y.1))).map (fun z : Nat × Block => z.2)
      · intro y hy
        simp only [List.map_cons, List.cons_append] at hy
        exact h.home y (hpp.mem_iff.mpr hy)
      · exact List.nodup_cons.mpr ⟨hu, h.uuids⟩
    · exact hb r ha
  · exact hb r ha

theorem free_spec {p q : Pool} (h : PoolInv p) {uuid req : Nat} (hf : free p uuid req = some q) :
    PoolInv q ∧ (∃ x, (uuid, x) ∈ p.st ∧ p.st.Perm ((uuid, x) :: q.st)) ∧ q.opts = p.opts ∧
      (p.opts.cacheOn = false → q.cache = p.cache) := by
  unfold free at hf
  split at hf
  · simp at hf
  · next x hx =>
    have hmem := List.mem_of_find?_eq_some hx
    have hkey := List.find?_some hx
    simp only [beq_iff_eq] at hkey
    have hp := List.perm_cons_erase hmem
    have hnd : ((p.st.erase x).map (·.1)).Nodup := by
      have := (hp.map (·.1)).nodup_iff.mp h.uuids
      exact (List.nodup_cons.mp this).2
    have hx' : x = (uuid, x.2) := by rw [← hkey]
    have hpx : p.st.Perm ((uuid, x.2) :: p.st.erase x) := by rw [← hx']; exact hp
    split at hf
    · next hc =>
      simp at hf
      subst hf
      have hpp : (p.st.map (·.2) ++ p.cache.map (·.2)).Perm
          ((p.st.erase x).map (·.2) ++ (p.cache ++ [(x.2.2.size, x.2)]).map (·.2)) := by
        refine ((hp.map (·.2)).append_right _).trans ?_
        simp only [List.map_cons, List.map_append, List.map_nil, List.cons_append]
        rw [← List.append_assoc]
        exact (List.perm_append_singleton _ _).symm
      refine ⟨⟨h.opts, h.keys, ?_, ?_, ?_, h.apart, hnd, h.ne, h.pos⟩,
        ⟨x.2, by rw [← hx']; exact hmem, hpx⟩, rfl, ?_⟩
      · intro y hy
        refine ⟨(h.seg y hy).1.perm ?_, (h.seg y hy).2⟩
        unfold busyOf
        exact (hpp.filter _).map _
      · intro y hy
        exact h.home y (hpp.mem_iff.mpr hy)
      · intro y hy
        simp only [List.mem_append, List.mem_singleton] at hy
        rcases hy with hy | rfl
        · exact h.key y hy
        · rfl
      · intro ho
        simp [cacheable, ho] at hc
    · simp at hf
      subst hf
      have hhome := h.home x.2 (by simp; exact Or.inl ⟨x.1, hmem⟩)
      obtain ⟨pre, s, post, e1, e2⟩ := freeIn_split x.2.1 x.2.2 p.segs hhome
      have hkeys : (freeIn x.2.1 x.2.2 p.segs).map (·.1) = p.segs.map (·.1) := by
        rw [e2]; conv_rhs => rw [e1]
        simp
      have hpp : (p.st.map (·.2) ++ p.cache.map (·.2)).Perm
          (x.2 :: ((p.st.erase x).map (·.2) ++ p.cache.map (·.2))) :=
        (hp.map (·.2)).append_right _
      have hb : ∀ base, (busyOf p base).Perm ((if x.2.1 = base then [x.2.2] else []) ++
          busyOf { p with segs := freeIn x.2.1 x.2.2 p.segs, st := p.st.erase x } base) := by
        intro base
        unfold busyOf
        refine ((hpp.filter _).map _).trans ?_
        rw [List.filter_cons]
        by_cases hbb : x.2.1 = base <;> simp [hbb]
      have hss := h.seg (x.2.1, s) (by rw [e1]; simp)
      refine ⟨⟨h.opts, by simp only; rw [hkeys]; exact h.keys, ?_, ?_, h.key, ?_, hnd, by simp [e2], ?_⟩,
        ⟨x.2, by rw [← hx']; exact hmem, hpx⟩, rfl, fun _ => rfl⟩
      · intro y hy
        simp only at hy
        rw [e2] at hy
        have hk := h.keys
        rw [e1] at hk
        simp only [List.map_append, List.map_cons, List.nodup_append, List.nodup_cons] at hk
        by_cases hyb : y.1 = x.2.1
        · have : y = (x.2.1, freeSeg s x.2.2) := by
            simp only [List.mem_append, List.mem_cons] at hy
            rcases hy with hy | rfl | hy
            · exfalso
              exact hk.2.2 y.1 (List.mem_map.mpr ⟨y, hy, rfl⟩) x.2.1 (by simp) hyb
            · rfl
            · exfalso
              exact hk.2.1.1 (List.mem_map.mpr ⟨y, hy, hyb⟩)
          subst this
          simp only
          have hbp := hb x.2.1
          rw [if_pos rfl] at hbp
          have hin : x.2.2 ∈ busyOf p x.2.1 := hbp.mem_iff.mpr (by simp)
          have hfs := freeSeg_spec hss.1 hin
          refine ⟨hfs.perm ?_, hss.2⟩
          exact (List.cons_perm_iff_perm_erase.mp hbp.symm).2.symm
        · have hy' : y ∈ p.segs := by
            rw [e1]
            simp only [List.mem_append, List.mem_cons] at hy ⊢
            rcases hy with hy | rfl | hy
            · exact Or.inl hy
            · exact absurd rfl hyb
            · exact Or.inr (Or.inr hy)
          have hbp := hb y.1
          rw [if_neg (fun e => hyb e.symm)] at hbp
          exact ⟨(h.seg y hy').1.perm hbp, (h.seg y hy').2⟩
      · intro y hy
        simp only
        rw [hkeys]
        exact h.home y (hpp.mem_iff.mpr (List.mem_cons_of_mem _ hy))
      · have hap := h.apart
        rw [e1] at hap
        simp only
        rw [e2]
        rw [List.pairwise_append, List.pairwise_cons] at hap ⊢
        obtain ⟨p1, ⟨p2, p3⟩, p4⟩ := hap
        refine ⟨p1, ⟨fun y hy => p2 y hy, p3⟩, ?_⟩
        intro z hz y hy
        rcases List.mem_cons.mp hy with rfl | hy
        · exact p4 z hz (x.2.1, s) (by simp)
        · exact p4 z hz y (by simp [hy])
      · intro y hy
        simp only at hy
        have : y.1 ∈ p.segs.map (·.1) := by rw [← hkeys]; exact List.mem_map.mpr ⟨y, hy, rfl⟩
        obtain ⟨z, hz, he⟩ := List.mem_map.mp this
        rw [← he]; exact h.pos z hz

theorem newPool_inv (o : Opts) (ho : GoodOpts o) (base : Nat) (hb : 0 < base) :
    PoolInv (newPool o base) := by
  refine ⟨ho, by simp [newPool], ?_, by simp [newPool], by simp [newPool], by simp [newPool],
    by simp [newPool], by simp [newPool], by simp [newPool, hb]⟩
  intro x hx
  simp only [newPool, List.mem_singleton] at hx
  subst hx
  refine ⟨?_, rfl⟩
  have : busyOf (newPool o base) base = [] := by simp [busyOf, newPool]
  simp only [this]
  rw [ho.cap]
  exact newSeg_inv _ _ ho.ord

end Verif.Buddy
