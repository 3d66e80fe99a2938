import Verif.Pool.Model
/- Lists of iterations and shares; the invariant of the pool. -/
namespace Verif.Pool

/-! ### The loop -/

theorem mem_forLoop (st : Int) (hst : 0 < st) (e : Int) : ∀ (n : Nat) (i : Int), e - i ≤ n → ∀ x,
    x ∈ forLoop n i e st ↔ ∃ k : Nat, x = i + k * st ∧ x < e := by
  intro n
  induction n with
  | zero =>
    intro i hn x
    simp only [forLoop, List.not_mem_nil, false_iff, not_exists, not_and]
    intro k hk
    have : (0 : Int) ≤ k * st := by positivity
    push_cast at hn
    omega
  | succ n ih =>
    intro i hn x
    rw [forLoop]
    split_ifs with h
    · rw [List.mem_cons, ih (i + st) (by push_cast at hn; omega)]
      constructor
      · rintro (rfl | ⟨k, rfl, hk⟩)
        · exact ⟨0, by simp, h⟩
        · exact ⟨k + 1, by push_cast; ring, hk⟩
      · rintro ⟨k, rfl, hk⟩
        cases k with
        | zero => left; simp
        | succ k => right; exact ⟨k, by push_cast; ring, hk⟩
    · simp only [List.not_mem_nil, false_iff, not_exists, not_and]
      intro k hk
      have : (0 : Int) ≤ k * st := by positivity
      omega

theorem nodup_forLoop (st : Int) (hst : 0 < st) (e : Int) : ∀ (n : Nat) (i : Int), e - i ≤ n →
    (forLoop n i e st).Nodup := by
  intro n
  induction n with
  | zero => intro i _; exact List.nodup_nil
  | succ n ih =>
    intro i hn
    rw [forLoop]
    split_ifs with h
    · refine List.nodup_cons.2 ⟨?_, ih _ (by push_cast at hn; omega)⟩
      rw [mem_forLoop st hst e n _ (by push_cast at hn; omega)]
      rintro ⟨k, hk, _⟩
      have : (0 : Int) ≤ k * st := by positivity
      omega
    · exact List.nodup_nil

/-- A value the loop variable takes. -/
def IsIter (t : Task) (x : Int) : Prop := ∃ k : Nat, x = t.start + k * t.step ∧ x < t.stop

theorem mem_iters {t : Task} (h : 0 < t.step) (x : Int) : x ∈ t.iters ↔ IsIter t x :=
  mem_forLoop _ h _ _ _ (by omega) x

theorem nodup_iters {t : Task} (h : 0 < t.step) : t.iters.Nodup :=
  nodup_forLoop _ h _ _ _ (by omega)

theorem forLoop_length (st : Int) (hst : 0 < st) (e : Int) : ∀ (n : Nat) (i : Int), e - i ≤ n → ∀ m : Nat,
    e - i = m * st → (forLoop n i e st).length = m := by
  intro n
  induction n with
  | zero =>
    intro i hn m hm
    have : (0 : Int) ≤ m * st := by positivity
    push_cast at hn
    have h0 : (m : Int) * st = 0 := by omega
    rcases mul_eq_zero.1 h0 with h | h
    · simp [forLoop]; omega
    · omega
  | succ n ih =>
    intro i hn m hm
    rw [forLoop]
    split_ifs with h
    · cases m with
      | zero => simp at hm; omega
      | succ m =>
        rw [List.length_cons, ih (i + st) (by push_cast at hn; omega) m (by push_cast at hm; linarith)]
    · have hle : (m : Int) * st ≤ 0 := by omega
      cases m with
      | zero => rfl
      | succ m =>
        exfalso
        have : (0 : Int) < ((m + 1 : Nat) : Int) * st := by positivity
        omega

/-- When the step divides the range the index buffer is large enough. -/
theorem iters_length {t : Task} (h : 0 < t.step) (hd : t.step ∣ t.stop - t.start) (hle : t.start ≤ t.stop) :
    (t.iters.length : Int) = t.tiles := by
  obtain ⟨m, hm⟩ := hd
  have hm0 : 0 ≤ m := by
    by_contra hc
    push Not at hc
    have := mul_neg_of_pos_of_neg h hc
    omega
  obtain ⟨k, rfl⟩ := Int.eq_ofNat_of_zero_le hm0
  have h1 : t.iters.length = k := forLoop_length _ h _ _ _ (by omega) k (by rw [hm]; ring)
  rw [h1, Task.tiles, hm, Int.mul_tdiv_cancel_left _ (by omega)]

/-! ### Shares -/

theorem mem_stride (T : Nat) (hT : 0 < T) (n : Nat) : ∀ (f v : Nat), n ≤ v + f → ∀ x,
    x ∈ stride f v n T ↔ ∃ k, x = v + k * T ∧ x < n := by
  intro f
  induction f with
  | zero =>
    intro v hv x
    simp only [stride, List.not_mem_nil, false_iff, not_exists, not_and]
    intro k hk
    have : 0 ≤ k * T := Nat.zero_le _
    omega
  | succ f ih =>
    intro v hv x
    rw [stride]
    split_ifs with h
    · rw [List.mem_cons, ih (v + T) (by omega)]
      constructor
      · rintro (rfl | ⟨k, rfl, hk⟩)
        · exact ⟨0, by simp, h⟩
        · exact ⟨k + 1, by ring, hk⟩
      · rintro ⟨k, rfl, hk⟩
        cases k with
        | zero => left; simp
        | succ k => right; exact ⟨k, by ring, hk⟩
    · simp only [List.not_mem_nil, false_iff, not_exists, not_and]
      intro k hk
      have : 0 ≤ k * T := Nat.zero_le _
      omega

theorem nodup_stride (T : Nat) (hT : 0 < T) (n : Nat) : ∀ (f v : Nat), n ≤ v + f → (stride f v n T).Nodup := by
  intro f
  induction f with
  | zero => intro v _; exact List.nodup_nil
  | succ f ih =>
    intro v hv
    rw [stride]
    split_ifs with h
    · refine List.nodup_cons.2 ⟨?_, ih _ (by omega)⟩
      rw [mem_stride T hT n f _ (by omega)]
      rintro ⟨k, hk, _⟩
      have : 0 ≤ k * T := Nat.zero_le _
      omega
    · exact List.nodup_nil

theorem strides_perm (T : Nat) (hT : 0 < T) (n : Nat) :
    ((List.range T).flatMap fun i => stride n i n T).Perm (List.range n) := by
  refine (List.perm_ext_iff_of_nodup ?_ List.nodup_range).2 ?_
  · refine List.nodup_flatMap.2 ⟨fun i _ => nodup_stride T hT n n i (by omega), ?_⟩
    refine List.Pairwise.imp_of_mem ?_ List.pairwise_lt_range
    intro a b ha hb hab x hx hx'
    obtain ⟨k, hk, _⟩ := (mem_stride T hT n n a (by omega) x).1 hx
    obtain ⟨l, hl, _⟩ := (mem_stride T hT n n b (by omega) x).1 hx'
    have h1 : x % T = a := by
      rw [hk, Nat.add_mul_mod_self_right, Nat.mod_eq_of_lt (List.mem_range.1 ha)]
    have h2 : x % T = b := by
      rw [hl, Nat.add_mul_mod_self_right, Nat.mod_eq_of_lt (List.mem_range.1 hb)]
    omega
  · intro x
    simp only [List.mem_flatMap, List.mem_range]
    constructor
    · rintro ⟨i, _, hx⟩
      obtain ⟨k, _, h⟩ := (mem_stride T hT n n i (by omega) x).1 hx
      exact h
    · intro hx
      refine ⟨x % T, Nat.mod_lt _ hT, (mem_stride T hT n n _ (by omega) x).2 ⟨x / T, ?_, hx⟩⟩
      have := Nat.mod_add_div x T
      rw [mul_comm] at this
      exact this.symm

theorem range_map_getD (idx : List Int) : (List.range idx.length).map (idx.getD · 0) = idx := by
  apply List.ext_getElem
  · simp
  · intro n h1 h2
    simp [h2]

/-- The shares of the participating threads partition the iterations. -/
theorem shares_perm (T : Nat) (hT : 0 < T) (idx : List Int) :
    ((List.range (parts T idx)).flatMap (share T idx)).Perm idx := by
  unfold parts
  by_cases h : idx.length > T
  · rw [if_pos h]
    have h1 : (List.range T).flatMap (share T idx)
        = ((List.range T).flatMap fun i => stride idx.length i idx.length T).map (idx.getD · 0) := by
      rw [List.map_flatMap]
      congr 1
      funext i
      rw [share, if_pos h]
    rw [h1]
    have := (strides_perm T hT idx.length).map (idx.getD · 0)
    rwa [range_map_getD] at this
  · rw [if_neg h]
    have h1 : (List.range idx.length).flatMap (share T idx)
        = (List.range idx.length).map (idx.getD · 0) := by
      rw [List.map_eq_flatMap]
      congr 1
      funext i
      rw [share, if_neg h]
    rw [h1, range_map_getD]

/-- Taking one thread's part out of a concatenation. -/
theorem flatMap_range_split (k : Nat) (f : Nat → List Int) {i : Nat} (hi : i < k) :
    ((List.range k).flatMap f).Perm (f i ++ (List.range k).flatMap fun j => if j = i then [] else f j) := by
  induction k with
  | zero => omega
  | succ k ih =>
    rw [List.range_succ, List.flatMap_append, List.flatMap_append]
    simp only [List.flatMap_cons, List.flatMap_nil, List.append_nil]
    by_cases h : i = k
    · subst h
      rw [if_pos rfl, List.append_nil]
      have : (List.range i).flatMap (fun j => if j = i then [] else f j) = (List.range i).flatMap f := by
        refine List.flatMap_congr fun j hj => ?_
        rw [if_neg (by have := List.mem_range.1 hj; omega)]
      rw [this]
      exact List.perm_append_comm
    · rw [if_neg (fun hh => h hh.symm), ← List.append_assoc]
      exact (ih (by omega)).append_right _

/-- Removing the first element of one thread's part. -/
theorem flatMap_range_cons {k : Nat} {f g : Nat → List Int} {i : Nat} (hi : i < k) {x : Int}
    (h : f i = x :: g i) (hne : ∀ j < k, j ≠ i → f j = g j) :
    ((List.range k).flatMap f).Perm (x :: (List.range k).flatMap g) := by
  refine (flatMap_range_split k f hi).trans ?_
  refine List.Perm.trans ?_ ((flatMap_range_split k g hi).symm.cons x)
  rw [h]
  have : (List.range k).flatMap (fun j => if j = i then [] else f j)
      = (List.range k).flatMap (fun j => if j = i then [] else g j) := by
    refine List.flatMap_congr fun j hj => ?_
    by_cases hji : j = i
    · simp [hji]
    · simp [hji, hne j (List.mem_range.1 hj) hji]
  rw [this]
  exact List.Perm.refl _

/-! ### Invariant -/

/-- Calling thread `c` has its flags for threads below `i` set. -/
def FlagSet (pc : CPc) (i : Nat) : Prop :=
  match pc with
  | .setting j => i < j
  | .main _ _ => True
  | .waiting _ => True
  | _ => False

/-- The calling thread is in `splitTask`. -/
def Par (pc : CPc) : Prop :=
  match pc with
  | .setting _ => True
  | .main _ _ => True
  | .waiting _ => True
  | _ => False

/-- Thread `i`'s flag is still to be set. -/
def pend (pc : CPc) (i : Nat) : Bool :=
  match pc with
  | .setting j => decide (j ≤ i)
  | _ => false

/-- What the calling thread has still to run; `sh` is its share. -/
def rem0 (pc : CPc) (sh : List Int) : List Int :=
  match pc with
  | .setting _ => sh
  | .main _ rest => rest
  | _ => []

/-- What a worker has still to run once its flag was set. -/
def remW (w : WPc) (s : Nat) (fl : Bool) (sh : List Int) : List Int :=
  match w with
  | .run s' _ rest => if s' = s then rest else if fl then sh else []
  | _ => if fl then sh else []

/-- The iterations thread `i` has still to run for a call on slot `s`. -/
def rem (pc : CPc) (w : WPc) (fl : Bool) (s i : Nat) (sh : List Int) : List Int :=
  if i = 0 then rem0 pc sh else if pend pc i then sh else remW w s fl sh

/-- All of them. -/
def remAll (cfg : Cfg) (st : State) (c s : Nat) : List Int :=
  (List.range (parts cfg.T (st.task c).iters)).flatMap fun i =>
    rem (st.pc c) (st.w i) (st.flag s i) s i (share cfg.T (st.task c).iters i)

/-- Every calling thread has a slot of its own (`acquireTaskSlot`), or none. -/
def Exclusive (cfg : Cfg) : Prop := ∀ c c' s, cfg.slot c = some s → cfg.slot c' = some s → c = c'

structure Inv (cfg : Cfg) (st : State) : Prop where
  flags : ∀ s i, st.flag s i = true → ∃ c, cfg.slot c = some s ∧ FlagSet (st.pc c) i ∧ 1 ≤ i ∧
    i < parts cfg.T (st.task c).iters
  works : ∀ i s c rest, st.w i = .run s c rest → cfg.slot c = some s ∧ st.flag s i = true
  par : ∀ c, Par (st.pc c) → ∃ s, cfg.slot c = some s ∧ st.fn s = (c, (st.task c).iters) ∧
    0 < (st.task c).step ∧ 0 < parts cfg.T (st.task c).iters ∧
    (st.log c ++ remAll cfg st c s).Perm (st.task c).iters
  main : ∀ c c' rest, st.pc c = .main c' rest → c' = c
  seq : ∀ c rest, st.pc c = .seq rest → 0 < (st.task c).step ∧ st.log c ++ rest = (st.task c).iters
  wait : ∀ c j s, st.pc c = .waiting j → cfg.slot c = some s → 1 ≤ j ∧ ∀ i, 1 ≤ i → i < j → st.flag s i = false
  set : ∀ c j, st.pc c = .setting j → 1 ≤ j
  done : ∀ p ∈ st.done, 0 < p.1.step ∧ p.2.Perm p.1.iters

theorem Inv.init (cfg : Cfg) : Inv cfg .init where
  flags := by simp [State.init]
  works := by simp [State.init]
  par := by simp [State.init, Par]
  main := by simp [State.init]
  seq := by simp [State.init]
  wait := by simp [State.init]
  set := by simp [State.init]
  done := by simp [State.init]

variable {cfg : Cfg} {st : State}

/-- The calls by other threads are not touched by a change of thread `c`'s record and slot. -/
theorem par_other {cfg : Cfg} {st st' : State} {c : Nat} (hc : Par (st'.pc c)) (h : Inv cfg st)
    (hpc : st'.pc c = st.pc c) (ht : st'.task c = st.task c) (hl : st'.log c = st.log c)
    (hs : ∀ s, cfg.slot c = some s → st'.fn s = st.fn s ∧
      ∀ i, i < parts cfg.T (st.task c).iters →
        rem (st.pc c) (st'.w i) (st'.flag s i) s i (share cfg.T (st.task c).iters i) =
        rem (st.pc c) (st.w i) (st.flag s i) s i (share cfg.T (st.task c).iters i)) :
    ∃ s, cfg.slot c = some s ∧ st'.fn s = (c, (st'.task c).iters) ∧
    0 < (st'.task c).step ∧ 0 < parts cfg.T (st'.task c).iters ∧
    (st'.log c ++ remAll cfg st' c s).Perm (st'.task c).iters := by
  obtain ⟨s, h1, h2, h3, h4, h5⟩ := h.par c (hpc ▸ hc)
  refine ⟨s, h1, ?_, ht ▸ h3, ht ▸ h4, ?_⟩
  · rw [(hs s h1).1, h2, ht]
  · have : remAll cfg st' c s = remAll cfg st c s := by
      unfold remAll
      rw [ht, hpc]
      exact List.flatMap_congr fun i hi => (hs s h1).2 i (List.mem_range.1 hi)
    rw [this, hl, ht]
    exact h5

/-- Flags have a single owner. -/
theorem Inv.owner (hx : Exclusive cfg) (h : Inv cfg st) {s i c : Nat} (hf : st.flag s i = true)
    (hc : cfg.slot c = some s) : FlagSet (st.pc c) i ∧ 1 ≤ i ∧ i < parts cfg.T (st.task c).iters := by
  obtain ⟨c', h1, h2⟩ := h.flags s i hf
  rw [hx c c' s hc h1]
  exact h2

theorem startSeq_inv (h : Inv cfg st) {c : Nat} {t : Task} (hi : st.pc c = .idle)
    (ht : 0 < t.step) : Inv cfg (startSeq st c t) where
  flags s i hf := by
    obtain ⟨c', h1, h2, h3⟩ := h.flags s i hf
    have hne : c' ≠ c := by rintro rfl; simp [FlagSet, hi] at h2
    exact ⟨c', h1, by simpa [startSeq, hne] using h2, by simpa [startSeq, hne] using h3⟩
  works := h.works
  par c' hp := by
    have hne : c' ≠ c := by rintro rfl; simp [startSeq, Par] at hp
    exact par_other hp h (by simp [startSeq, hne]) (by simp [startSeq, hne]) (by simp [startSeq, hne])
      (fun s _ => ⟨rfl, fun i _ => rfl⟩)
  main c' c'' rest hp := by
    have hne : c' ≠ c := by rintro rfl; simp [startSeq] at hp
    exact h.main c' c'' rest (by simpa [startSeq, hne] using hp)
  seq c' rest hp := by
    by_cases hne : c' = c
    · subst hne
      simp only [startSeq, Function.update_self, CPc.seq.injEq] at hp ⊢
      simpa [hp.symm] using ht
    · simpa [startSeq, hne] using h.seq c' rest (by simpa [startSeq, hne] using hp)
  wait c' j s hp hs := by
    have hne : c' ≠ c := by rintro rfl; simp [startSeq] at hp
    exact h.wait c' j s (by simpa [startSeq, hne] using hp) hs
  set c' j hp := by
    have hne : c' ≠ c := by rintro rfl; simp [startSeq] at hp
    exact h.set c' j (by simpa [startSeq, hne] using hp)
  done := h.done

theorem startPar_inv (hT : 0 < cfg.T) (hx : Exclusive cfg) (h : Inv cfg st) {c s : Nat} {t : Task}
    (hi : st.pc c = .idle) (ht : 0 < t.step) (hs : cfg.slot c = some s) (htl : 1 < t.tiles)
    (hb : ¬ (t.iters.length : Int) > t.tiles) (hb' : t.tiles ≤ t.iters.length) :
    Inv cfg (startPar st c s t) := by
  have hlen : 2 ≤ t.iters.length := by omega
  have hk : 0 < parts cfg.T t.iters := by
    unfold parts; split_ifs <;> omega
  unfold startPar
  rw [if_neg hb]
  refine ⟨?_, h.works, ?_, ?_, ?_, ?_, ?_, h.done⟩
  · intro s' i hf
    obtain ⟨c', h1, h2, h3⟩ := h.flags s' i hf
    have hne : c' ≠ c := by rintro rfl; simp [FlagSet, hi] at h2
    exact ⟨c', h1, by simpa [hne] using h2, by simpa [hne] using h3⟩
  · intro c' hp
    by_cases hne : c' = c
    · subst hne
      refine ⟨s, hs, by simp, by simpa using ht, by simpa using hk, ?_⟩
      simp only [remAll, Function.update_self, List.nil_append]
      have : ∀ i, rem (.setting 1) (st.w i) (st.flag s i) s i (share cfg.T t.iters i)
          = share cfg.T t.iters i := by
        intro i
        unfold rem
        by_cases h0 : i = 0
        · simp [h0, rem0]
        · simp [h0, pend, Nat.one_le_iff_ne_zero.2 h0]
      simp only [this]
      exact shares_perm cfg.T hT t.iters
    · refine par_other (st' := _) hp h (by simp [hne]) (by simp [hne]) (by simp [hne]) fun s' hs' => ⟨?_, fun i _ => rfl⟩
      have : s' ≠ s := by rintro rfl; exact hne (hx _ _ _ hs' hs)
      simp [this]
  · intro c' c'' rest hp
    have hne : c' ≠ c := by rintro rfl; simp at hp
    exact h.main c' c'' rest (by simpa [hne] using hp)
  · intro c' rest hp
    have hne : c' ≠ c := by rintro rfl; simp at hp
    simpa [hne] using h.seq c' rest (by simpa [hne] using hp)
  · intro c' j s' hp hs'
    have hne : c' ≠ c := by rintro rfl; simp at hp
    exact h.wait c' j s' (by simpa [hne] using hp) hs'
  · intro c' j hp
    by_cases hne : c' = c
    · subst hne
      simp at hp; omega
    · exact h.set c' j (by simpa [hne] using hp)

/-- A step that changes only the program counter, log and completed calls of thread `c`. -/
theorem inv_caller (h : Inv cfg st) {c : Nat} {p : CPc} {lg : List Int} {d : List (Task × List Int)}
    (hflag : ∀ i, FlagSet (st.pc c) i → (∃ s, cfg.slot c = some s ∧ st.flag s i = true) → FlagSet p i)
    (hpar : Par p → ∃ s, cfg.slot c = some s ∧ st.fn s = (c, (st.task c).iters) ∧
      0 < (st.task c).step ∧ 0 < parts cfg.T (st.task c).iters ∧
      (lg ++ (List.range (parts cfg.T (st.task c).iters)).flatMap fun i =>
        rem p (st.w i) (st.flag s i) s i (share cfg.T (st.task c).iters i)).Perm (st.task c).iters)
    (hmain : ∀ c' rest, p = .main c' rest → c' = c)
    (hseq : ∀ rest, p = .seq rest → 0 < (st.task c).step ∧ lg ++ rest = (st.task c).iters)
    (hwait : ∀ j s, p = .waiting j → cfg.slot c = some s → 1 ≤ j ∧ ∀ i, 1 ≤ i → i < j → st.flag s i = false)
    (hset : ∀ j, p = .setting j → 1 ≤ j)
    (hdone : ∀ p ∈ d, 0 < p.1.step ∧ p.2.Perm p.1.iters) :
    Inv cfg { st with pc := Function.update st.pc c p, log := Function.update st.log c lg, done := d } := by
  refine ⟨?_, h.works, ?_, ?_, ?_, ?_, ?_, hdone⟩
  · intro s i hf
    obtain ⟨c', h1, h2, h3⟩ := h.flags s i hf
    refine ⟨c', h1, ?_, h3⟩
    by_cases hne : c' = c
    · subst hne; simpa using hflag i h2 ⟨s, h1, hf⟩
    · simpa [hne] using h2
  · intro c' hp
    by_cases hne : c' = c
    · subst hne
      obtain ⟨s, h1, h2, h3, h4, h5⟩ := hpar (by simpa using hp)
      exact ⟨s, h1, h2, h3, h4, by simpa [remAll] using h5⟩
    · exact par_other (st' := _) hp h (by simp [hne]) rfl (by simp [hne]) fun s' hs' => ⟨rfl, fun i _ => rfl⟩
  · intro c' c'' rest hp
    by_cases hne : c' = c
    · subst hne; exact hmain c'' rest (by simpa using hp)
    · exact h.main c' c'' rest (by simpa [hne] using hp)
  · intro c' rest hp
    by_cases hne : c' = c
    · subst hne; simpa using hseq rest (by simpa using hp)
    · simpa [hne] using h.seq c' rest (by simpa [hne] using hp)
  · intro c' j s hp hs
    by_cases hne : c' = c
    · subst hne; exact hwait j s (by simpa using hp) hs
    · exact h.wait c' j s (by simpa [hne] using hp) hs
  · intro c' j hp
    by_cases hne : c' = c
    · subst hne; exact hset j (by simpa using hp)
    · exact h.set c' j (by simpa [hne] using hp)

/-- A step of worker `i` without effect on shares. -/
theorem inv_worker (h : Inv cfg st) {i : Nat} {p : WPc}
    (hrun : ∀ s c rest, p = .run s c rest → cfg.slot c = some s ∧ st.flag s i = true)
    (hrem : ∀ s c, cfg.slot c = some s → Par (st.pc c) → i < parts cfg.T (st.task c).iters →
      rem (st.pc c) p (st.flag s i) s i (share cfg.T (st.task c).iters i) =
      rem (st.pc c) (st.w i) (st.flag s i) s i (share cfg.T (st.task c).iters i)) :
    Inv cfg { st with w := Function.update st.w i p } := by
  refine ⟨h.flags, ?_, ?_, h.main, h.seq, h.wait, h.set, h.done⟩
  · intro i' s c rest hp
    by_cases hne : i' = i
    · subst hne; exact hrun s c rest (by simpa using hp)
    · exact h.works i' s c rest (by simpa [hne] using hp)
  · intro c hp
    refine par_other (st' := _) hp h rfl rfl rfl fun s hs => ⟨rfl, fun i' hi' => ?_⟩
    by_cases hne : i' = i
    · subst hne; simpa using hrem s c hs hp hi'
    · simp [hne]

end Verif.Pool
