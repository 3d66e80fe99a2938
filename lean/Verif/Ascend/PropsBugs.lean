import Verif.Ascend.PropsAlloc
/-!
C140-C142: violated parts and non-vacuity examples.
-/
namespace Verif.Ascend

/-! ### Non-vacuity -/

/-- A pool of 1 KiB at address 4096: two tensors, one freed, a third one reusing its block. -/
example : ∃ p live, Reach 500 4096 1024 p live ∧ live = [(0, 40), (1, 100)] ∧ p.ptr 0 = some 4096 ∧ p.ptr 1 = some 4224 := by
  obtain ⟨p1, h1⟩ : ∃ p, p = (Pool.alloc (Pool.new (some 4096) 1024) [] 60).1 := ⟨_, rfl⟩
  obtain ⟨p2, h2⟩ : ∃ p, p = (p1.alloc [] 100).1 := ⟨_, rfl⟩
  obtain ⟨p3, h3⟩ : ∃ p, p = p2.freeBlock 0 := ⟨_, rfl⟩
  obtain ⟨p4, h4⟩ : ∃ p, p = (p3.alloc p3.free 40).1 := ⟨_, rfl⟩
  have r0 := Reach.new (lim := 500) (base := 4096) (size := 1024)
  have r1 : Reach 500 4096 1024 p1 _ := r0.alloc (n := 60) (ord := []) (id := 0) (by decide) (List.Perm.refl _)
    (by rw [h1]; decide +kernel)
  have r2 : Reach 500 4096 1024 p2 _ := r1.alloc (n := 100) (ord := []) (id := 1) (by decide)
    (by rw [h1]; decide +kernel) (by rw [h2, h1]; decide +kernel)
  have r3 := r2.free 0
  rw [← h3] at r3
  have r4 : Reach 500 4096 1024 p4 _ := r3.alloc (n := 40) (ord := p3.free) (id := 0) (by decide) (List.Perm.refl _)
    (by rw [h4, h3, h2, h1]; decide +kernel)
  exact ⟨p4, _, r4, rfl, by rw [h4, h3, h2, h1]; decide +kernel, by rw [h4, h3, h2, h1]; decide +kernel⟩

/-- Two threads' storages, interleaved. -/
example : ∃ s, SReach 500 4096 1024 s ∧ s.ph 0 = .live 4096 60 ∧ s.ph 1 = .work 1 4224 100 := by
  have r0 := SReach.init (lim := 500) (base := 4096) (size := 1024)
  obtain ⟨p1, h1⟩ : ∃ p, p = (Pool.alloc (Pool.new (some 4096) 1024) [] 60).1 := ⟨_, rfl⟩
  obtain ⟨p2, h2⟩ : ∃ p, p = (p1.alloc [] 100).1 := ⟨_, rfl⟩
  have r1 := r0.step (Step.alloc (i := 0) (size := 60) (ord := []) (p := p1) (id := 0) rfl (List.Perm.refl _)
    (by rw [h1]; decide +kernel) (by decide)) (by rintro n (h | h) <;> cases h; decide)
  have r2 := r1.step (Step.workAlloc (i := 1) (size := 100) (ord := []) (p := p2) (id := 1) (addr := 4224) rfl
    (by show List.Perm [] p1.free; rw [h1]; decide +kernel)
    (by show p1.alloc [] (100 % 2 ^ 32) = _; rw [h2, h1]; decide +kernel)
    (by rw [h2, h1]; decide +kernel)) (by rintro n (h | h) <;> cases h; decide)
  have r3 := r2.step (Step.lookup (i := 0) (id := 0) (size := 60) (addr := 4096) rfl
    (by show p2.ptr 0 = _; rw [h2, h1]; decide +kernel)) (by rintro n (h | h) <;> cases h)
  have r4 := r3.step (Step.record (i := 0) (id := 0) (size := 60) (addr := 4096) rfl) (by rintro n (h | h) <;> cases h)
  exact ⟨_, r4, rfl, rfl⟩

/-! ### Violations -/

theorem alloc_nil {p : Pool} {n : Nat} (h : hasRoom p.remain (alignSize n) = true) :
    p.alloc [] n = ((p.count n).fresh n, some (toInt32 p.next)) := by
  unfold Pool.alloc
  simp only [bestLoop]
  rw [if_pos (by exact h)]
  rfl

theorem hasRoom_of {r : Int} {a : Nat} (h0 : 0 ≤ r) (h1 : r < 2 ^ 64) (h : (a : Int) < r) : hasRoom r a = true := by
  unfold hasRoom
  rw [Int.emod_eq_of_lt h0 h1]
  exact decide_eq_true h

/-- **C140, violated** (pool size).  If the pool size is not a multiple of 32, three ordinary requests suffice:
the third block lies entirely outside the pool.  (The remaining size has become negative and is then compared as
an unsigned number, so from there on every request is "satisfied".) -/
theorem C140_pool_size_violated {base size : Nat} (hb : base % 64 = 0) (hs : size % 32 ≠ 0) (h64 : 64 ≤ size) (hbig : size < 2 ^ 32) :
    ∃ p live id n a, Reach (2 ^ 32 - 64) base size p live ∧ (id, n) ∈ live ∧ p.ptr id = some a ∧ base + size ≤ a := by
  obtain ⟨q, r, hr, hr0, hq, hsq⟩ : ∃ q r, r < 32 ∧ 0 < r ∧ 2 ≤ q ∧ size = 32 * q + r :=
    ⟨size / 32, size % 32, by omega, by omega, by omega, by omega⟩
  have a0 : alignSize 0 = 32 := by decide
  have a1 : alignSize (32 * (q - 2)) = 32 * (q - 1) := by
    unfold alignSize
    norm_num at *
    omega
  have u0 : up64 base = base := by unfold up64; omega
  have u1 : up64 (base + 32) = base + 64 := by unfold up64; omega
  obtain ⟨p1, h1⟩ : ∃ p, p = ((Pool.new (some base) size).count 0).fresh 0 := ⟨_, rfl⟩
  have p1cur : p1.cur = base + 32 := by
    rw [h1]; show up64 base + alignSize 0 = _; rw [u0, a0]
  have p1rem : p1.remain = size - 32 := by
    rw [h1]; show (size : Int) - ((up64 base : Int) - base) - (alignSize 0 : Nat) = _; rw [u0, a0]; push_cast; ring
  have p1next : p1.next = 1 := by rw [h1]; rfl
  have p1free : p1.free = [] := by rw [h1]; rfl
  have p1used : p1.used = [⟨0, 32, 0, base, 1, 0⟩] := by
    rw [h1]
    show [(⟨toInt32 0, alignSize 0, 0, up64 base, 1, 0⟩ : Block)] = _
    rw [u0, a0]; rfl
  obtain ⟨p2, h2⟩ : ∃ p, p = (p1.count (32 * (q - 2))).fresh (32 * (q - 2)) := ⟨_, rfl⟩
  have p2cur : p2.cur = base + 32 * (q + 1) := by
    rw [h2]; show up64 p1.cur + alignSize _ = _; rw [p1cur, u1, a1]; omega
  have p2rem : p2.remain = (r : Int) - 32 := by
    rw [h2]
    show p1.remain - ((up64 p1.cur : Int) - p1.cur) - (alignSize (32 * (q - 2)) : Nat) = _
    rw [p1rem, p1cur, u1, a1, hsq]
    push_cast
    omega
  have p2next : p2.next = 2 := by rw [h2]; show p1.next + 1 = 2; rw [p1next]
  have p2free : p2.free = [] := by rw [h2]; exact p1free
  have p2used : p2.used = [⟨1, 32 * (q - 1), 32 * (q - 2), base + 64, p1.allocs + 1, 0⟩, ⟨0, 32, 0, base, 1, 0⟩] := by
    rw [h2]
    show ins p1.used (⟨toInt32 p1.next, alignSize _, _, up64 p1.cur, p1.allocs + 1, 0⟩ : Block) = _
    rw [p1used, p1next, p1cur, u1, a1]
    rfl
  obtain ⟨p3, h3⟩ : ∃ p, p = (p2.count 0).fresh 0 := ⟨_, rfl⟩
  have p3used : ∃ l, p3.used = ⟨2, 32, 0, up64 (base + 32 * (q + 1)), p2.allocs + 1, 0⟩ :: l := by
    rw [h3]
    refine ⟨p2.used, ?_⟩
    show ins p2.used (⟨toInt32 p2.next, alignSize 0, 0, up64 p2.cur, p2.allocs + 1, 0⟩ : Block) = _
    rw [p2used, p2next, p2cur, a0]
    rfl
  have r0 := Reach.new (lim := 2 ^ 32 - 64) (base := base) (size := size)
  have r1 : Reach (2 ^ 32 - 64) base size p1 _ := r0.alloc (n := 0) (ord := []) (by norm_num) (List.Perm.refl _) (by
    rw [h1]
    refine alloc_nil ?_
    rw [a0]
    exact hasRoom_of (show (0 : Int) ≤ (size : Int) by omega) (show (size : Int) < 2 ^ 64 by omega) (show ((32 : Nat) : Int) < (size : Int) by omega))
  have r2 : Reach (2 ^ 32 - 64) base size p2 _ := r1.alloc (n := 32 * (q - 2)) (ord := []) (by norm_num; omega)
    (by rw [p1free]) (by
    rw [h2]
    refine alloc_nil ?_
    rw [a1, p1rem]
    exact hasRoom_of (by omega) (by omega) (by push_cast; omega))
  have r3 : Reach (2 ^ 32 - 64) base size p3 _ := r2.alloc (n := 0) (ord := []) (by norm_num) (by rw [p2free]) (by
    rw [h3]
    refine alloc_nil ?_
    rw [a0, p2rem]
    unfold hasRoom
    have : ((r : Int) - 32) % 2 ^ 64 = (r : Int) - 32 + 2 ^ 64 := by
      rw [← Int.add_emod_right]
      exact Int.emod_eq_of_lt (by omega) (by omega)
    rw [this]
    exact decide_eq_true (by push_cast; omega))
  refine ⟨p3, _, toInt32 p2.next, 0, up64 (base + 32 * (q + 1)), r3, List.mem_cons_self, ?_, ?_⟩
  · obtain ⟨l, hl⟩ := p3used
    rw [p2next]
    unfold Pool.ptr find
    rw [hl]
    rfl
  · unfold up64; omega

example : (5000 : Nat) % 32 ≠ 0 := by decide

/-- **C141, violated** (4 GiB and more).  The size is passed on as a 32-bit number: a tensor of `2^32 ≤ n` bytes
gets a block for `n mod 2^32` bytes, and the next tensor is placed inside it. -/
theorem C141_truncated_violated {base size n : Nat} (hb : base % 64 = 0) (hs : 2 ^ 32 + 1024 ≤ size) (hs' : size < 2 ^ 63) (hn : 2 ^ 32 ≤ n)
    (hn' : n % 2 ^ 32 ≤ 2 ^ 32 - 64) :
    ∃ s a, SReach n base size s ∧ s.ph 0 = .live base n ∧ s.ph 1 = .live a 1 ∧ base < a ∧ a < base + n := by
  obtain ⟨m, hm⟩ : ∃ m, m = n % 2 ^ 32 := ⟨_, rfl⟩
  rw [← hm] at hn'
  obtain ⟨k1, k2, k3⟩ := alignSize_le hn'
  have k4 : alignSize m ≤ m + 63 := by unfold alignSize; norm_num at *; omega
  obtain ⟨A, hA⟩ : ∃ A, A = alignSize m := ⟨_, rfl⟩
  rw [← hA] at k1 k2 k3 k4
  have a1 : alignSize 1 = 64 := by decide
  have u0 : up64 base = base := by unfold up64; omega
  have hu := up64_spec (x := base + A) (by omega)
  obtain ⟨p1, h1⟩ : ∃ p, p = ((Pool.new (some base) size).count m).fresh m := ⟨_, rfl⟩
  have p1cur : p1.cur = base + A := by rw [h1]; show up64 base + alignSize m = _; rw [u0, hA]
  have p1rem : p1.remain = (size : Int) - A := by
    rw [h1]; show (size : Int) - ((up64 base : Int) - base) - (alignSize m : Nat) = _; rw [u0, ← hA]; push_cast; ring
  have p1next : p1.next = 1 := by rw [h1]; rfl
  have p1free : p1.free = [] := by rw [h1]; rfl
  have p1used : p1.used = [⟨0, A, m, base, 1, 0⟩] := by
    rw [h1]
    show [(⟨toInt32 0, alignSize m, m, up64 base, 1, 0⟩ : Block)] = _
    rw [u0, hA]; rfl
  obtain ⟨p2, h2⟩ : ∃ p, p = (p1.count 1).fresh 1 := ⟨_, rfl⟩
  have p2used : p2.used = [⟨1, 64, 1, up64 (base + A), p1.allocs + 1, 0⟩, ⟨0, A, m, base, 1, 0⟩] := by
    rw [h2]
    show ins p1.used (⟨toInt32 p1.next, alignSize 1, 1, up64 p1.cur, p1.allocs + 1, 0⟩ : Block) = _
    rw [p1used, p1next, p1cur, a1]
    rfl
  have room : hasRoom (Pool.new (some base) size).remain (alignSize m) = true := by
    rw [← hA]
    show hasRoom (size : Int) A = true
    clear hm hu p1cur p1rem p1used p2used
    exact hasRoom_of (show (0 : Int) ≤ (size : Int) by omega) (show (size : Int) < 2 ^ 64 by omega)
      (show ((A : Nat) : Int) < (size : Int) by omega)
  have nx : toInt32 (Pool.new (some base) size).next = 0 := by show toInt32 0 = 0; decide
  have al1 : (Pool.new (some base) size).alloc [] m = (p1, some 0) := by
    rw [h1, ← nx]
    exact alloc_nil room
  have r0 := SReach.init (lim := n) (base := base) (size := size)
  have s1 := r0.step (Step.alloc (i := 0) (size := n) (ord := []) (p := p1) (id := 0) rfl (List.Perm.refl _) (by
    show (Pool.new (some base) size).alloc [] (n % 2 ^ 32) = _
    rw [← hm]
    exact al1) (by decide))
    (by rintro x (h | h) <;> cases h; exact le_rfl)
  have s2 := s1.step (Step.lookup (i := 0) (id := 0) (size := n) (addr := base) rfl (by
    show p1.ptr 0 = _
    unfold Pool.ptr find
    rw [p1used]
    rfl)) (by rintro x (h | h) <;> cases h)
  have s3 := s2.step (Step.record (i := 0) (id := 0) (size := n) (addr := base) rfl) (by rintro x (h | h) <;> cases h)
  have s4 := s3.step (Step.alloc (i := 1) (size := 1) (ord := []) (p := p2) (id := 1) rfl (by
      show List.Perm [] p1.free; rw [p1free]) (by
    show p1.alloc [] 1 = _
    rw [h2, show (1 : Int) = toInt32 p1.next by rw [p1next]; rfl]
    refine alloc_nil ?_
    rw [a1, p1rem]
    exact hasRoom_of (by omega) (by omega) (by push_cast; omega)) (by decide))
    (by rintro x (h | h) <;> cases h; omega)
  have s5 := s4.step (Step.lookup (i := 1) (id := 1) (size := 1) (addr := up64 (base + A)) rfl (by
    show p2.ptr 1 = _
    unfold Pool.ptr find
    rw [p2used]
    rfl)) (by rintro x (h | h) <;> cases h)
  have s6 := s5.step (Step.record (i := 1) (id := 1) (size := 1) (addr := up64 (base + A)) rfl) (by rintro x (h | h) <;> cases h)
  refine ⟨_, up64 (base + A), s6, rfl, rfl, ?_, ?_⟩
  · clear hs hs' hn
    omega
  · have : m + 2 ^ 32 ≤ n := by
      rw [hm]
      clear s1 s2 s3 s4 s5 s6
      norm_num at hn ⊢
      omega
    clear hs hs' hn hm
    norm_num at this
    omega

/-- The 8 GiB pool of `initAscendBackend` and a 4 GiB tensor meet the hypotheses. -/
example : ∃ s a, SReach (2 ^ 32) 4096 (8 * 2 ^ 30) s ∧ s.ph 0 = .live 4096 (2 ^ 32) ∧ s.ph 1 = .live a 1 ∧ 4096 < a ∧ a < 4096 + 2 ^ 32 :=
  C141_truncated_violated (by norm_num) (by norm_num) (by norm_num) (by norm_num) (by norm_num)

/-- **C140, violated** (just below 4 GiB): rounding up wraps around, and a request for almost 4 GiB is answered
with a block of at most 32 bytes. -/
theorem C140_wrap_violated {n : Nat} (h : 2 ^ 32 - 64 < n) (h' : n < 2 ^ 32) : alignSize n ≤ 32 := by
  unfold alignSize
  norm_num at *
  omega

/-- **C141, violated** (two devices).  The pool is chosen by the current device at the time of the call and the
allocator does not record where a tensor was allocated.  Freeing a tensor of device 0 while device 1 is current
frees the block of a live tensor of device 1; the next tensor gets that tensor's memory. -/
theorem C141_device_violated :
    ∃ m0 m1 m2 m3 m4 a b, m0 = Mgr.create 2 1024 (fun i => some (4096 * (i + 1))) ∧
      { m0 with dev := 0 }.alloc 100 = some (m1, a) ∧          -- tensor A on device 0
      { m1 with dev := 1 }.alloc 100 = some (m2, b) ∧          -- tensor B on device 1
      m2.free a = some m3 ∧                                    -- A is freed, device 1 is current
      m3.alloc 100 = some (m4, b) := by                        -- a new tensor gets B's memory
  refine ⟨_, _, _, _, _, _, _, rfl, rfl, rfl, rfl, rfl⟩

/-- Which device is current after `createMemoryPool` on `n` devices: the last one. -/
example : (Mgr.create 4 1024 (fun _ => some 0)).dev = 3 := rfl

/-- The pool after `k + 1` one-byte-or-less requests on a fresh pool of `64 * (m + 1)` bytes. -/
theorem tiny_fill {base m : Nat} (hb : base % 64 = 0) (hm : m < 2 ^ 26) : ∀ k, k ≤ m →
    ∃ p, Reach 0 base (64 * (m + 1)) p ((List.range (k + 1)).reverse.map (fun i => ((i : Int), 0))) ∧
      p.cur = base + 64 * k + 32 ∧ p.remain = 64 * (m + 1) - 64 * k - 32 ∧ p.free = [] ∧ p.next = k + 1 ∧
      (∀ b ∈ p.used, b.size = 32)
  | 0, _ => by
    have a0 : alignSize 0 = 32 := by decide
    have u0 : up64 base = base := by unfold up64; omega
    have r0 := Reach.new (lim := 0) (base := base) (size := 64 * (m + 1))
    have nx : toInt32 (Pool.new (some base) (64 * (m + 1))).next = 0 := by show toInt32 0 = 0; decide
    have hal : (Pool.new (some base) (64 * (m + 1))).alloc [] 0 =
        (((Pool.new (some base) (64 * (m + 1))).count 0).fresh 0, some 0) := by
      rw [← nx]
      refine alloc_nil ?_
      rw [a0]
      show hasRoom ((64 * (m + 1) : Nat) : Int) 32 = true
      clear r0
      exact hasRoom_of (by omega) (by omega) (by push_cast; omega)
    refine ⟨_, r0.alloc (n := 0) (ord := []) (by norm_num) (List.Perm.refl _) hal, ?_, ?_, rfl, rfl, ?_⟩
    · show up64 base + alignSize 0 = _
      rw [u0, a0]
    · show ((64 * (m + 1) : Nat) : Int) - ((up64 base : Int) - base) - (alignSize 0 : Nat) = _
      rw [u0, a0]; push_cast; omega
    · intro b hb
      have hb' : b ∈ [(⟨toInt32 0, alignSize 0, 0, up64 base, 1, 0⟩ : Block)] := hb
      simp only [List.mem_singleton] at hb'
      rw [hb']; exact a0
  | k + 1, hk => by
    obtain ⟨p, hr, h1, h2, h3, h4, h5⟩ := tiny_fill hb hm k (by omega)
    have a0 : alignSize 0 = 32 := by decide
    have u1 : up64 p.cur = base + 64 * (k + 1) := by rw [h1]; unfold up64; omega
    have hnx : toInt32 p.next = ((k + 1 : Nat) : Int) := by rw [h4]; exact toInt32_nat (by omega)
    have hal : p.alloc [] 0 = ((p.count 0).fresh 0, some (toInt32 p.next)) := alloc_nil (by
      rw [a0, h2]
      exact hasRoom_of (by omega) (by omega) (by push_cast; omega))
    have r := hr.alloc (n := 0) (ord := []) (by norm_num) (by rw [h3]) hal
    refine ⟨(p.count 0).fresh 0, ?_, ?_, ?_, h3, ?_, ?_⟩
    · rw [List.range_succ, List.reverse_append]
      simp only [List.reverse_cons, List.reverse_nil, List.nil_append, List.cons_append]
      rw [hnx] at r
      exact r
    · show up64 p.cur + alignSize 0 = _
      rw [u1, a0]
    · show p.remain - ((up64 p.cur : Int) - p.cur) - (alignSize 0 : Nat) = _
      rw [u1, a0, h1, h2]; push_cast; omega
    · show p.next + 1 = _; rw [h4]
    · intro b hb
      have hb' : b ∈ ins p.used (⟨toInt32 p.next, alignSize 0, 0, up64 p.cur, p.allocs + 1, 0⟩ : Block) := hb
      unfold ins at hb'
      split at hb'
      · exact h5 b hb'
      · rcases List.mem_cons.1 hb' with rfl | hb'
        · exact a0
        · exact h5 b hb'

/-- Freeing everything the client holds, one id after the other. -/
theorem free_all {lim base size : Nat} : ∀ (ids : List Int) (p : Pool) (live : List (Int × Nat)),
    Reach lim base size p live → (∀ e ∈ live, e.1 ∈ ids) → (∀ b ∈ p.used ++ p.free, b.size = 32) →
    ∃ q, Reach lim base size q [] ∧ q.remain = p.remain ∧ (∀ b ∈ q.used ++ q.free, b.size = 32)
  | [], p, live, hr, hl, hs => by
    have : live = [] := by
      cases live with
      | nil => rfl
      | cons e l => exact absurd (hl e List.mem_cons_self) (by simp)
    subst this
    exact ⟨p, hr, rfl, hs⟩
  | id :: ids, p, live, hr, hl, hs => by
    have hkeep : (p.freeBlock id).remain = p.remain ∧ ∀ b ∈ (p.freeBlock id).used ++ (p.freeBlock id).free, b.size = 32 := by
      unfold Pool.freeBlock
      split
      · exact ⟨rfl, hs⟩
      · cases hf : find p.used id with
        | none => exact ⟨rfl, hs⟩
        | some c =>
          refine ⟨rfl, fun b hb => ?_⟩
          simp only [List.mem_append] at hb
          rcases hb with hb | hb
          · exact hs b (List.mem_append_left _ (List.mem_of_mem_filter hb))
          · unfold ins at hb
            split at hb
            · exact hs b (List.mem_append_right _ hb)
            · rcases List.mem_cons.1 hb with rfl | hb
              · exact hs _ (List.mem_append_left _ (find_some hf).1)
              · exact hs b (List.mem_append_right _ hb)
    obtain ⟨q, h1, h2, h3⟩ := free_all ids (p.freeBlock id) _ (hr.free id) (by
      intro e he
      obtain ⟨g1, g2⟩ := List.mem_filter.1 he
      rcases List.mem_cons.1 (hl e g1) with h | h
      · simp [h] at g2
      · exact h) hkeep.2
    exact ⟨q, h1, h2.trans hkeep.1, h3⟩

/-- **C142, violated** (fragmentation).  Blocks are never split or merged: whatever the size of the pool, after it
has been filled with tiny tensors and *all of them freed*, a request for a single byte is refused although nothing
is allocated. -/
theorem C142_fragment_violated {base m : Nat} (hb : base % 64 = 0) (hm : m < 2 ^ 26) :
    ∃ p, Reach 0 base (64 * (m + 1)) p [] ∧ ∀ ord, ord.Perm p.free → ∀ n, 1 ≤ n → n ≤ 2 ^ 32 - 64 → (p.alloc ord n).2 = none := by
  obtain ⟨p, hr, h1, h2, h3, h4, h5⟩ := tiny_fill hb hm m le_rfl
  obtain ⟨q, g1, g2, g3⟩ := free_all _ p _ hr (fun e he => List.mem_map.2 ⟨e, he, rfl⟩) (by
    intro b hb
    rw [h3, List.append_nil] at hb
    exact h5 b hb)
  refine ⟨q, g1, fun ord ho n hn hn' => ?_⟩
  have hal : 64 ≤ alignSize n := by
    obtain ⟨k1, k2, k3⟩ := alignSize_le hn'
    omega
  have hbest := best_spec (alignSize n) (l := ord) (fun b hb => by
    have := g3 b (List.mem_append_right _ (ho.mem_iff.1 hb))
    rw [this]; decide)
  unfold Pool.alloc
  cases hx : (bestLoop (alignSize n) ord (none, sizeMax)).1 with
  | some b =>
    exfalso
    rw [hx] at hbest
    have := g3 b (List.mem_append_right _ (ho.mem_iff.1 hbest.1))
    have := hbest.2.1
    omega
  | none =>
    simp only [hx]
    rw [if_neg]
    show ¬ hasRoom q.remain (alignSize n) = true
    have : q.remain = 32 := by rw [g2, h2]; push_cast; ring
    rw [this]
    unfold hasRoom
    simp only [decide_eq_true_eq, not_lt]
    have : (32 : Int) % 2 ^ 64 = 32 := by norm_num
    rw [this]
    omega

end Verif.Ascend
