import Verif.Buddy.Pool
/-
C12–C15: the buddy memory pool.
-/
namespace Verif.Buddy

/-- Pools reachable by any client history: `alloc` with a uuid that is not in use (the symbol table
aborts otherwise) of any size, `free` of any uuid in use, in any order; the OS hands out fresh
non-overlapping memory. -/
inductive Reach (o : Opts) : Pool → Prop
  | init (base : Nat) : 0 < base → Reach o (newPool o base)
  | alloc {p} (uuid req : Nat) (os : List (Option Nat)) (p' : Pool) (x : Nat × Block) : Reach o p →
      uuid ∉ p.st.map (·.1) → OsOk p os → alloc p uuid req os = some (p', x) → Reach o p'
  | free {p} (uuid req : Nat) (p' : Pool) : Reach o p → free p uuid req = some p' → Reach o p'

theorem reach_inv {o : Opts} (ho : GoodOpts o) {p : Pool} (h : Reach o p) :
    PoolInv p ∧ p.opts = o ∧ (o.cacheOn = false → p.cache = []) := by
  induction h with
  | init base hb => exact ⟨newPool_inv o ho base hb, rfl, fun _ => rfl⟩
  | alloc uuid req os p' x _ hu hos ha ih =>
    obtain ⟨i1, i2, i3⟩ := ih
    obtain ⟨a1, a2, a3, a4⟩ := alloc_spec i1 hu hos ha
    refine ⟨a1, by rw [← i2]; exact a4, ?_⟩
    intro hc
    have hc' := i3 hc
    unfold Buddy.alloc at ha
    rw [if_neg (by simp [cacheable, i2, hc])] at ha
    simp only [Option.map_eq_some_iff] at ha
    obtain ⟨q, hq, he⟩ := ha
    obtain ⟨_, _, _, h4, _⟩ := allocBuddy_spec i1 hos hq
    simp at he
    rw [← he.1]
    simp [h4, hc']
  | free uuid req p' _ hf ih =>
    obtain ⟨i1, i2, i3⟩ := ih
    obtain ⟨f1, f2, f3, f4⟩ := free_spec i1 hf
    exact ⟨f1, by rw [f3, i2], fun hc => by rw [f4 (by rw [i2]; exact hc), i3 hc]⟩

/-! ### C12 -/

/-- Absolute byte ranges of two blocks do not overlap. -/
def Apart (x y : Nat × Block) : Prop :=
  x.1 + x.2.off + x.2.size ≤ y.1 + y.2.off ∨ y.1 + y.2.off + y.2.size ≤ x.1 + x.2.off

/-- C12 (first-segment capacity a power of two): in every reachable pool any two live storages
(distinct uuids) occupy disjoint memory, and each lies inside one of the pool's segments. -/
theorem C12_live_disjoint_partial (o : Opts) (ho : GoodOpts o) (p : Pool) (hp : Reach o p) :
    p.st.Pairwise (fun x y => x.1 ≠ y.1 ∧ Apart x.2 y.2) ∧
    ∀ x ∈ p.st, ∃ s, (x.2.1, s) ∈ p.segs ∧ x.2.2.off + x.2.2.size ≤ s.cap := by
  have h := (reach_inv ho hp).1
  have hin : ∀ x ∈ p.st, ∃ s, (x.2.1, s) ∈ p.segs ∧ x.2.2 ∈ busyOf p x.2.1 := by
    intro x hx
    have hb : x.2 ∈ p.st.map (·.2) ++ p.cache.map (·.2) := by
      rw [List.mem_append]; exact Or.inl (List.mem_map.mpr ⟨x, hx, rfl⟩)
    obtain ⟨y, hy, hy'⟩ := List.mem_map.mp (h.home x.2 hb)
    refine ⟨y.2, by rw [← hy']; exact hy, ?_⟩
    unfold busyOf
    exact List.mem_map.mpr ⟨x.2, List.mem_filter.mpr ⟨hb, by simp⟩, rfl⟩
  have hfit : ∀ x ∈ p.st, ∃ s, (x.2.1, s) ∈ p.segs ∧ x.2.2.off + x.2.2.size ≤ s.cap := by
    intro x hx
    obtain ⟨s, hs, hb⟩ := hin x hx
    have := (h.seg _ hs).1
    exact ⟨s, hs, by rw [this.cap]; exact (this.tile.lv _ hb).fits⟩
  refine ⟨?_, hfit⟩
  have hnd : p.st.Pairwise (fun x y => x.1 ≠ y.1) := by
    have := h.uuids
    rwa [List.Nodup, List.pairwise_map] at this
  -- pairs in the same segment
  have hsame : p.st.Pairwise (fun x y => x.2.1 = y.2.1 → x.2.2 ≠ y.2.2) := by
    have key : ∀ (st : List (Nat × Nat × Block)) (cache : List (Nat × Nat × Block)),
        (∀ x ∈ st, (busyOf { p with st := st, cache := cache } x.2.1).Nodup) →
        st.Pairwise (fun x y => x.2.1 = y.2.1 → x.2.2 ≠ y.2.2) := by
      intro st
      induction st with
      | nil => intro _ _; exact List.Pairwise.nil
      | cons x st ih =>
        intro cache hn
        refine List.Pairwise.cons ?_ (ih cache ?_)
        · intro y hy he hbb
          have := hn x (by simp)
          simp only [busyOf, List.map_cons, List.cons_append, List.filter_cons, decide_true, if_true,
            List.nodup_cons] at this
          refine this.1 (List.mem_map.mpr ⟨y.2, List.mem_filter.mpr ⟨?_, by simp [he]⟩, hbb.symm⟩)
          rw [List.mem_append]; exact Or.inl (List.mem_map.mpr ⟨y, hy, rfl⟩)
        · intro y hy
          have := hn y (by simp [hy])
          unfold busyOf at this ⊢
          simp only [List.map_cons, List.cons_append, List.filter_cons] at this
          split at this
          · exact (List.nodup_cons.mp this).2
          · exact this
    exact key p.st p.cache (fun x hx => by
      obtain ⟨s, hs, _⟩ := hin x hx
      exact (h.seg _ hs).1.tile.ndl)
  have hboth := hnd.and hsame
  refine List.Pairwise.imp_of_mem ?_ hboth
  rintro x y hx hy ⟨h1, h2⟩
  refine ⟨h1, ?_⟩
  obtain ⟨s, hs, hb⟩ := hin x hx
  obtain ⟨t, ht, hb'⟩ := hin y hy
  have sx := (h.seg _ hs).1
  have sy := (h.seg _ ht).1
  by_cases he : x.2.1 = y.2.1
  · have hb2 := hb'
    rw [← he] at hb2
    have := sx.tile.dj _ _ (Or.inr hb) (Or.inr hb2) (h2 he)
    unfold Disj at this
    unfold Apart
    omega
  · have fx := (sx.tile.lv _ hb).fits
    have fy := (sy.tile.lv _ hb').fits
    have cx := sx.cap
    have cy := sy.cap
    simp only at fx fy cx cy
    have hst : s.cap = 2 ^ s.maxO := cx
    have := List.Pairwise.forall_of_forall_of_flip
      (R := fun a b : Nat × Seg => a.1 ≠ b.1 → a.1 + a.2.cap ≤ b.1 ∨ b.1 + b.2.cap ≤ a.1)
      (l := p.segs) (by intro a _ h; exact absurd rfl h)
      (h.apart.imp (by intro a b hab _; exact hab))
      (h.apart.imp (by intro a b hab _; exact hab.symm)) hs ht he
    unfold Apart
    simp only at this
    omega

/-- C12: every successful allocation returns a block of at least the requested size that is
registered for the storage and lies in non-null memory. -/
theorem C12_size_partial (o : Opts) (ho : GoodOpts o) (p : Pool) (hp : Reach o p) (uuid req : Nat)
    (os : List (Option Nat)) (hu : uuid ∉ p.st.map (·.1)) (hos : OsOk p os) (p' : Pool) (x : Nat × Block)
    (ha : alloc p uuid req os = some (p', x)) :
    req ≤ x.2.size ∧ (uuid, x) ∈ p'.st ∧ 0 < x.1 := by
  obtain ⟨a1, a2, a3, a4⟩ := alloc_spec (reach_inv ho hp).1 hu hos ha
  simp only at a1 a2 a3
  refine ⟨a2, by rw [a3]; simp, ?_⟩
  have := a1.home x (by rw [a3]; simp)
  obtain ⟨y, hy, he⟩ := List.mem_map.mp this
  rw [← he]; exact a1.pos y hy

/-- a run of pool operations for witnesses -/
def demoOpts : Opts := ⟨128, 4, 7, false, []⟩

/-- C12 violated for other capacities: with `buddy_first_segment_cap = 96`, `buddy_max_order = 7`
(which passes the assertion `ceil(log2(96)) = 7`), a request for 60 bytes gets a block of 48 bytes;
the same arithmetic scaled to MB. -/
theorem C12_violated : ∃ (o : Opts) (p p' : Pool) (req : Nat) (x : Nat × Block),
    Nat.clog 2 o.firstCap = o.maxO ∧ o.minO ≤ o.maxO ∧ Reach o p ∧
    alloc p 1 req [] = some (p', x) ∧ x.2.size < req := by
  refine ⟨⟨96, 4, 7, false, []⟩, newPool ⟨96, 4, 7, false, []⟩ 4096, _, 60, (4096, ⟨0, 48, 6⟩),
    by decide +kernel, by decide, .init _ (by decide), rfl, by decide⟩

/-- two live storages and a freed one -/
theorem demo_reach : ∃ p, Reach demoOpts p ∧ p.st = [(3, 4096, ⟨32, 16, 4⟩), (1, 4096, ⟨0, 32, 5⟩)] := by
  have h0 : Reach demoOpts (newPool demoOpts 4096) := .init _ (by decide)
  have h1 := Reach.alloc 1 20 [] _ _ h0 (by decide) trivial rfl
  have h2 := Reach.alloc 2 64 [] _ _ h1 (by decide) trivial rfl
  have h3 := Reach.alloc 3 1 [] _ _ h2 (by decide) trivial rfl
  have h4 := Reach.free 2 64 _ h3 rfl
  exact ⟨_, h4, by decide +kernel⟩

example : GoodOpts demoOpts := ⟨rfl, by decide, by decide⟩

/-! ### C13 -/

/-- C13 (power-of-two capacity, object cache off as by default): once every storage has been freed,
whatever the history and the order of frees, every segment consists of one free block of its whole
capacity, its used counter is 0, and any request up to the size of some segment is served from the
existing segments. -/
theorem C13_freed_pool_is_whole_partial (o : Opts) (ho : GoodOpts o) (hc : o.cacheOn = false)
    (p : Pool) (hp : Reach o p) (hfree : p.st = []) :
    (∀ x ∈ p.segs, x.2.used = 0 ∧ x.2.free x.2.maxO = [⟨0, x.2.cap, x.2.maxO⟩] ∧
      ∀ k, k ≠ x.2.maxO → x.2.free k = []) ∧
    ∀ req, (∃ x ∈ p.segs, req ≤ x.2.cap) → (allocBuddy p req []).isSome := by
  obtain ⟨h, h2, h3⟩ := reach_inv ho hp
  have hcache := h3 hc
  have hb : ∀ base, busyOf p base = [] := by intro base; simp [busyOf, hfree, hcache]
  have hsi : ∀ x ∈ p.segs, SegInv x.2 [] := by
    intro x hx; have := (h.seg x hx).1; rwa [hb] at this
  refine ⟨?_, ?_⟩
  · intro x hx
    obtain ⟨e1, e2, e3⟩ := empty_single (hsi x hx)
    exact ⟨e3, e1, e2⟩
  · rintro req ⟨x, hx, hle⟩
    by_contra hno
    simp only [allocBuddy, Option.isSome_map, Bool.not_eq_true, Option.isSome_eq_false_iff,
      Option.isNone_iff_eq_none] at hno
    have := (allocSeg_none_iff (hsi x hx) req).mp (trySegs_none.mp hno x hx) x.2.maxO
      ⟨0, x.2.cap, x.2.maxO⟩ (by rw [(empty_single (hsi x hx)).1]; simp)
    simp only at this
    have hm := (hsi x hx).ord
    have h5 := (hsi x hx).cap
    have := Nat.pow_le_pow_right (n := 2) (by omega) hm
    omega

example : ∃ p, Reach demoOpts p ∧ p.st = [] ∧ p.segs.length = 1 := by
  have h0 : Reach demoOpts (newPool demoOpts 4096) := .init _ (by decide)
  have h1 := Reach.alloc 1 20 [] _ _ h0 (by decide) trivial rfl
  have h2 := Reach.alloc 2 64 [] _ _ h1 (by decide) trivial rfl
  have h3 := Reach.free 1 20 _ h2 rfl
  have h4 := Reach.free 2 64 _ h3 rfl
  exact ⟨_, h4, by decide +kernel, by decide +kernel⟩

/-- C13 violated for other capacities: with capacity 96 the halves of a split block (48 bytes) never
merge again (the buddy address is computed with the power of two 64). -/
theorem C13_violated : ∃ (o : Opts) (p : Pool), Nat.clog 2 o.firstCap = o.maxO ∧ o.minO ≤ o.maxO ∧
    Reach o p ∧ p.st = [] ∧ (∃ x ∈ p.segs, 96 ≤ x.2.cap) ∧ allocBuddy p 96 [] = none := by
  have h0 : Reach ⟨96, 4, 7, false, []⟩ (newPool ⟨96, 4, 7, false, []⟩ 4096) := .init _ (by decide)
  have h1 := Reach.alloc 1 40 [] _ _ h0 (by decide) trivial rfl
  have h2 := Reach.free 1 40 _ h1 rfl
  refine ⟨_, _, ?_, ?_, h2, ?_, ?_, ?_⟩
  · decide +kernel
  · decide
  · decide +kernel
  · exact ⟨_, by simp [freeIn]; rfl, by decide +kernel⟩
  · exact Option.isNone_iff_eq_none.mp (by decide +kernel)

/-! ### C14 -/

/-- C14: the used counter of a segment is the sum of the sizes of its busy blocks (live storages and
parked cache objects), and a request is not served from the existing segments exactly when no free
block of any segment is large enough. -/
theorem C14_accounting_partial (o : Opts) (ho : GoodOpts o) (p : Pool) (hp : Reach o p) :
    (∀ x ∈ p.segs, x.2.used = ((busyOf p x.1).map Block.size).sum ∧ x.2.used ≤ x.2.cap) ∧
    ∀ req, allocBuddy p req [] = none ↔
      ∀ x ∈ p.segs, ∀ k, ∀ b ∈ x.2.free k, b.size < max req (2 ^ o.minO) := by
  obtain ⟨h, h2, _⟩ := reach_inv ho hp
  constructor
  · intro x hx
    have hs := (h.seg x hx).1
    refine ⟨hs.used, ?_⟩
    rw [hs.used]
    apply sizes_le _ _ hs.tile.ndl
    · intro b hb c hc; exact hs.tile.dj b c (Or.inr hb) (Or.inr hc)
    · intro b hb; rw [hs.cap]; exact (hs.tile.lv b hb).fits
  · intro req
    simp only [allocBuddy, Option.map_eq_none_iff]
    rw [trySegs_none]
    constructor
    · intro hn x hx
      have := (allocSeg_none_iff (h.seg x hx).1 req).mp (hn x hx)
      rwa [(h.seg x hx).2, h2] at this
    · intro hn x hx
      refine (allocSeg_none_iff (h.seg x hx).1 req).mpr ?_
      rw [(h.seg x hx).2, h2]
      exact hn x hx

/-! ### C15 -/

theorem allocSeg_cap (s : Seg) (req : Nat) (h : s.cap < req) : allocSeg s req = none := by
  unfold allocSeg
  simp only
  rw [if_pos]
  have := le_max_left req (2 ^ s.minO)
  omega

/-- C15 violated: a request above 512 MB is never answered by a pool whose first segment is at most
512 MB: however many segments the OS grants, the pool asks for yet another one of 512 MB. -/
theorem C15_diverges (o : Opts) (ho : o.firstCap ≤ 2 ^ 29) (base req : Nat) (hr : 2 ^ 29 < req)
    (os : List (Option Nat)) : allocBuddy (newPool o base) req os = none := by
  have key : ∀ (os : List (Option Nat)) (p : Pool), (∀ x ∈ p.segs, x.2.cap ≤ 2 ^ 29) →
      allocBuddy p req os = none := by
    intro os
    induction os with
    | nil =>
      intro p hp
      simp only [allocBuddy, Option.map_eq_none_iff]
      exact trySegs_none.mpr (fun x hx => allocSeg_cap _ _ (lt_of_le_of_lt (hp x hx) hr))
    | cons a os ih =>
      intro p hp
      have : trySegs p.segs req = none :=
        trySegs_none.mpr (fun x hx => allocSeg_cap _ _ (lt_of_le_of_lt (hp x hx) hr))
      simp only [allocBuddy, this]
      apply ih
      have hins : ∀ (b : Nat) (s : Seg) (l : List (Nat × Seg)), ∀ x ∈ insertSeg b s l,
          x = (b, s) ∨ x ∈ l := by
        intro b s l
        induction l with
        | nil => simp [insertSeg]
        | cons y l ih =>
          intro x hx
          simp only [insertSeg] at hx
          split at hx
          · simp only [List.mem_cons] at hx ⊢; tauto
          · split at hx
            · exact Or.inr hx
            · rcases List.mem_cons.mp hx with rfl | hx
              · simp
              · rcases ih x hx with h | h
                · exact Or.inl h
                · simp [h]
      intro x hx
      rcases hins _ _ _ x hx with rfl | hx
      · exact Nat.min_le_right _ _
      · exact hp x hx
  apply key
  intro x hx
  simp only [newPool, List.mem_singleton] at hx
  subst hx
  exact ho

/-- C15 violated: when the OS refuses a new segment the pool does not notice and hands out memory of a
segment at the null address. -/
theorem C15_os_failure_unnoticed : ∃ (p p' : Pool) (x : Nat × Block), Reach demoOpts p ∧
    alloc p 2 100 [none] = some (p', x) ∧ x.1 = 0 := by
  have h0 : Reach demoOpts (newPool demoOpts 4096) := .init _ (by decide)
  have h1 := Reach.alloc 1 20 [] _ _ h0 (by decide) trivial rfl
  exact ⟨_, _, _, h1, rfl, by decide +kernel⟩

/-- C15, the part that holds: a request up to 512 MB is served after at most 30 new segments, provided
the OS grants them. -/
theorem C15_terminates_partial (o : Opts) (ho : GoodOpts o) (p : Pool) (hp : Reach o p) (req : Nat)
    (hr : req ≤ 2 ^ 29) (os : List (Option Nat)) (hos : OsOk p os) (hlen : 30 ≤ os.length) :
    (allocBuddy p req os).isSome := by
  have key : ∀ (os : List (Option Nat)) (n : Nat) (p : Pool), PoolInv p → OsOk p os →
      29 < n + os.length → 2 ^ n ≤ prevCap p ∨ 2 ^ 29 ≤ prevCap p → os ≠ [] →
      (allocBuddy p req os).isSome := by
    intro os
    induction os with
    | nil => intro _ _ _ _ _ _ h; exact absurd rfl h
    | cons a os ih =>
      intro n p hp hos hn hcap _
      cases a with
      | none => exact absurd hos (by simp [OsOk])
      | some a =>
        obtain ⟨o1, o2, o3⟩ := hos
        obtain ⟨e1, M, hM, hperm⟩ := expand_spec hp o1 o2
        simp only [allocBuddy]
        split
        · simp
        · have hmem : (a, newSeg (2 ^ M) p.opts.minO M) ∈ (expand p (some a)).segs :=
            hperm.mem_iff.mpr (by simp)
          have hprev := (prevCap_spec _ e1.ne).2 _ hmem
          simp only [newSeg] at hprev
          by_cases hreq : req ≤ 2 ^ M
          · -- served by the new segment
            have hsome : (trySegs (expand p (some a)).segs req) ≠ none := by
              intro hno
              have h1 := trySegs_none.mp hno _ hmem
              have h2 := (e1.seg _ hmem).1
              have h3 := (allocSeg_none_iff h2 req).mp h1 M ⟨0, 2 ^ M, M⟩ (by simp [newSeg])
              simp only [newSeg] at h3
              have h4 := h2.ord
              simp only [newSeg] at h4
              have := Nat.pow_le_pow_right (n := 2) (by omega) h4
              omega
            obtain ⟨r, hr'⟩ := Option.ne_none_iff_exists'.mp hsome
            cases os with
            | nil => simp [allocBuddy, hr']
            | cons b os => simp [allocBuddy, hr']
          · have hMlt : 2 ^ M < 2 ^ 29 := by omega
            have hmul : 2 ^ M = prevCap p * 2 := by
              have : nextCap p = min (prevCap p * 2) (2 ^ 29) := rfl
              omega
            rcases hcap with hcap | hcap
            · apply ih (n + 1) _ e1 o3
              · simp only [List.length_cons] at hn; omega
              · left; rw [pow_succ]; omega
              · rintro rfl
                simp only [List.length_cons, List.length_nil] at hn
                have : 2 ^ 29 ≤ 2 ^ n := Nat.pow_le_pow_right (by omega) (by omega)
                omega
            · omega
  refine key os 0 p (reach_inv ho hp).1 hos (by omega) ?_ (by rintro rfl; simp at hlen)
  left
  obtain ⟨⟨x, hx, he⟩, _⟩ := prevCap_spec p (reach_inv ho hp).1.ne
  rw [he]
  exact Nat.one_le_two_pow

/-- C15: the memory manager's default threshold (128 MB) keeps every pool request below the bound. -/
theorem C15_default_threshold (req q : Nat) (h : mmRoute (2 ^ 27) req = some q) : q = req ∧ q ≤ 2 ^ 29 := by
  unfold mmRoute at h
  split at h
  · simp at h
  · simp at h
    subst h
    exact ⟨rfl, by omega⟩

example : OsOk (newPool demoOpts 4096) [some 8192, some 16384] := by
  refine ⟨by decide, ?_, by decide, ?_, trivial⟩
  · decide +kernel
  · decide +kernel

end Verif.Buddy
