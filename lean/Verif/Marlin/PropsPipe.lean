import Verif.Marlin.Pipe
import Mathlib.Tactic.IntervalCases

/-!
# C157: whatever the schedule, every tile is computed from its own data
-/

namespace Verif.Marlin

theorem upd2_self {β : Type} (f : Nat → Nat → β) (i j : Nat) (v : β) : upd2 f i j v i j = v := by
  simp [upd2]

theorem upd2_ne {β : Type} (f : Nat → Nat → β) {i j a c : Nat} (v : β) (h : ¬ (a = i ∧ c = j)) :
    upd2 f i j v a c = f a c := by simp [upd2, h]

/-- When does a tile keep its data?  `src p` is the tile whose copies tile `p` is read from; no
later copies that can have been issued by the time tile `p` is read go to the same slot. -/
structure PipeCfg.Safe (c : PipeCfg) (src : Nat → Nat) : Prop where
  stages : 2 ≤ c.S
  le : ∀ p, p < c.n → src p ≤ p
  slot : ∀ p, p < c.n → c.wr (src p) = some (c.rd p)
  clear : ∀ p j, p < c.n → j < c.n → src p < j → j < p + c.S → c.wr j ≠ some (c.rd p)
  /-- two tiles within the length of the pipeline never share a slot -/
  sep : ∀ i j s, i < j → j < i + c.S → c.wr i = some s → c.wr j ≠ some s

/-- The copies issued so far: all of earlier phases, and the issued words of this one. -/
def Pipe.Out (c : PipeCfg) (σ : Pipe) (j x : Nat) : Prop :=
  (0 < σ.phase ∧ j + 2 < σ.phase + c.S) ∨ (c.duty σ.phase j = true ∧ σ.issued j x = true)

structure Pipe.Inv (c : PipeCfg) (src : Nat → Nat) (σ : Pipe) : Prop where
  pend : ∀ j x, σ.pend j x = true → σ.Out c j x ∧ x < c.words ∧ j < c.n ∧ σ.phase ≤ j
  issued : ∀ j x, σ.issued j x = true → c.duty σ.phase j = true
  /-- a word of a tile still to be read has been issued and is under way, or in its slot -/
  data : ∀ p x, p < c.n → x < c.words → σ.phase ≤ p + 1 → σ.Out c (src p) x →
    σ.pend (src p) x = true ∨ σ.mem (c.rd p) x = c.val (src p) x
  read : ∀ t x v, σ.read t x = some v → 0 < σ.phase ∧ v = c.val (src (σ.phase - 1)) x
  got : ∀ p t x, p + 1 < σ.phase → p < c.n → x < c.words → c.needs t x = true →
    σ.got p t x = some (c.val (src p) x)

variable {c : PipeCfg} {src : Nat → Nat}

theorem PipeCfg.duty_lt {p j : Nat} (hS : 2 ≤ c.S) (h : c.duty p j = true) : j + 1 < p + c.S := by
  unfold PipeCfg.duty at h
  split_ifs at h with hp <;> simp at h <;> omega

theorem PipeCfg.duty_ge {p j : Nat} (hS : 2 ≤ c.S) (h : c.duty p j = true) : p ≤ j := by
  unfold PipeCfg.duty at h
  split_ifs at h with hp <;> simp at h <;> omega

theorem Pipe.Out.lt {σ : Pipe} {j x : Nat} (hS : 2 ≤ c.S) (h : σ.Out c j x) :
    j + 1 < σ.phase + c.S := by
  rcases h with h | h
  · omega
  · exact PipeCfg.duty_lt hS h.1

theorem Pipe.Inv.step (hs : c.Safe src) {σ τ : Pipe} (hi : σ.Inv c src)
    (hst : Pipe.Step c σ τ) : τ.Inv c src := by
  have hS := hs.stages
  cases hst with
  | issue j x s hd hx hj hw hn hrf =>
    have hout : ∀ a b, Pipe.Out c
        ⟨σ.phase, upd2 σ.issued j x true, upd2 σ.pend j x true, σ.mem, σ.read, σ.got⟩ a b ↔
        σ.Out c a b ∨ (a = j ∧ b = x) := by
      intro a b
      unfold Pipe.Out
      dsimp only
      by_cases h : a = j ∧ b = x
      · obtain ⟨rfl, rfl⟩ := h
        simp [upd2_self, hd]
      · rw [upd2_ne _ _ h]; simp [h]
    refine ⟨?_, ?_, ?_, hi.read, hi.got⟩
    · intro a b hp
      rw [hout]
      dsimp only at hp ⊢
      by_cases h : a = j ∧ b = x
      · exact ⟨Or.inr h, by omega, by omega, by have := PipeCfg.duty_ge hS hd; omega⟩
      · rw [upd2_ne _ _ h] at hp
        obtain ⟨h1, h2⟩ := hi.pend a b hp
        exact ⟨Or.inl h1, h2⟩
    · intro a b hp
      dsimp only at hp ⊢
      by_cases h : a = j ∧ b = x
      · rw [h.1]; exact hd
      · rw [upd2_ne _ _ h] at hp; exact hi.issued a b hp
    · intro p b hp hb hph ho
      rw [hout] at ho
      dsimp only at hph ⊢
      by_cases h : src p = j ∧ b = x
      · left; rw [h.1, h.2]; exact upd2_self _ _ _ _
      · rw [upd2_ne _ _ h]
        exact hi.data p b hp hb hph (ho.resolve_right h)
  | land j x s hp hw =>
    obtain ⟨ho, hx, hj, hge⟩ := hi.pend j x hp
    have hlt := ho.lt hS
    refine ⟨?_, hi.issued, ?_, hi.read, hi.got⟩
    · intro a b hq
      dsimp only at hq
      by_cases h : a = j ∧ b = x
      · obtain ⟨rfl, rfl⟩ := h; rw [upd2_self] at hq; cases hq
      · rw [upd2_ne _ _ h] at hq; exact hi.pend a b hq
    · intro p b hpn hb hph hoa
      dsimp only at hph ⊢
      have hoa' : σ.Out c (src p) b := hoa
      by_cases h : src p = j ∧ b = x
      · right
        obtain ⟨h1, rfl⟩ := h
        have hsl := hs.slot p hpn
        rw [h1, hw] at hsl
        obtain rfl := Option.some.inj hsl
        rw [upd2_self, h1]
      · rw [upd2_ne _ _ h]
        rcases hi.data p b hpn hb hph hoa' with hd | hd
        · exact Or.inl hd
        · right
          by_cases h2 : c.rd p = s ∧ b = x
          · obtain ⟨h2, rfl⟩ := h2
            have hjne : src p ≠ j := fun e => h ⟨e, rfl⟩
            rcases Nat.lt_or_gt_of_ne hjne with hl | hl
            · exact absurd (by rw [hw, h2]) (hs.clear p j hpn hj hl (by omega))
            · have hlt2 := hoa'.lt hS
              exact absurd (by rw [hs.slot p hpn, h2]) (hs.sep j (src p) s hl (by omega) hw)
          · rw [upd2_ne _ _ h2]; exact hd
  | load t x h0 ht hx hne =>
    refine ⟨hi.pend, hi.issued, hi.data, ?_, hi.got⟩
    intro t' y v hy
    dsimp only at hy ⊢
    refine ⟨h0, ?_⟩
    by_cases h : t' = t ∧ y = x
    · obtain ⟨rfl, rfl⟩ := h
      rw [upd2_self] at hy
      have hle := hs.le (σ.phase - 1) ht
      have hd := hi.data (σ.phase - 1) y ht hx (by omega) (Or.inl ⟨h0, by omega⟩)
      rcases hd with hd | hd
      · have := (hi.pend _ _ hd).2.2.2; omega
      · rw [hd] at hy; exact (Option.some.inj hy).symm
    · rw [upd2_ne _ _ h] at hy; exact (hi.read t' y v hy).2
  | sync hI hr hw =>
    refine ⟨?_, ?_, ?_, ?_, ?_⟩
    · intro a b hp
      dsimp only at hp ⊢
      obtain ⟨h1, h2, h3, h4⟩ := hi.pend a b hp
      have hge : ¬ a + (c.S - 2) < σ.phase + (c.S - 1) := fun h => by rw [hw a b h] at hp; cases hp
      have := h1.lt hS
      exact ⟨Or.inl ⟨by dsimp only; omega, by dsimp only; omega⟩, h2, h3, by omega⟩
    · intro a b hp; cases hp
    · intro p b hp hb hph ho
      dsimp only at hph ⊢
      have hle := hs.le p hp
      refine hi.data p b hp hb (by omega) ?_
      rcases ho with ⟨_, ho⟩ | ⟨_, ho⟩
      · dsimp only at ho
        by_cases hd : c.duty σ.phase (src p) = true
        · exact Or.inr ⟨hd, hI _ b hd hb (by omega) (by rw [hs.slot p hp]; simp)⟩
        · left
          unfold PipeCfg.duty at hd
          split_ifs at hd with hp0 <;> simp at hd <;> omega
      · cases ho
    · intro t y v hy; cases hy
    · intro p t x h1 h2 h3 h4
      dsimp only at h1 ⊢
      by_cases h : p = σ.phase - 1
      · by_cases h0 : 0 < σ.phase
        · rw [if_pos ⟨h0, h⟩]
          have hne := hr h0 (by omega) t x h3 h4
          cases hq : σ.read t x with
          | none => exact absurd hq hne
          | some w => rw [(hi.read t x w hq).2, h]
        · omega
      · rw [if_neg (by omega)]
        exact hi.got p t x (by omega) h2 h3 h4

theorem Pipe.reach_inv (hs : c.Safe src) {mem : Nat → Nat → Nat} {σ : Pipe}
    (hr : Pipe.Reach c (Pipe.start mem) σ) : σ.Inv c src := by
  induction hr with
  | init =>
    refine ⟨?_, ?_, ?_, ?_, ?_⟩
    · intro j x h; cases h
    · intro j x h; cases h
    · intro p x _ _ _ ho
      rcases ho with ⟨h, _⟩ | ⟨_, h⟩
      · simp [Pipe.start] at h
      · simp [Pipe.start] at h
    · intro t x v h; cases h
    · intro p t x h; simp [Pipe.start] at h
  | step _ hst ih => exact ih.step hs hst

/-- What a schedule-independent pipeline guarantees: every thread has read, for every tile that is
done, the words of the tile it should be computed from; and at the end no copy is under way. -/
def PipeCfg.Faithful (c : PipeCfg) (src : Nat → Nat) : Prop :=
  ∀ (mem : Nat → Nat → Nat) (σ : Pipe), Pipe.Reach c (Pipe.start mem) σ →
    (∀ p t x, p + 1 < σ.phase → p < c.n → x < c.words → c.needs t x = true →
      σ.got p t x = some (c.val (src p) x)) ∧
    (c.n < σ.phase → ∀ j x, σ.pend j x = false)

theorem PipeCfg.Safe.faithful (hs : c.Safe src) : c.Faithful src := by
  intro mem σ hr
  have hinv := Pipe.reach_inv hs hr
  refine ⟨hinv.got, fun hn j x => ?_⟩
  cases hp : σ.pend j x with
  | false => rfl
  | true => have := hinv.pend j x hp; omega

/-- **C156.** The eight-stage pipeline of the repacking kernels: whenever the asynchronous copies
land and however the threads interleave, every tile is repacked from its own words, and when the
last tile is done no copy is under way, so the next k tile starts afresh. -/
theorem C156_pipeline (n words : Nat) (needs : Nat → Nat → Bool) (val : Nat → Nat → Nat) :
    (repackPipe n words needs val).Faithful id := by
  apply PipeCfg.Safe.faithful
  refine ⟨Nat.le_of_ble_eq_true rfl, fun p _ => le_refl p, fun p _ => rfl, ?_, ?_⟩
  · intro p j _ _ h1 h2 he
    have h2' : j < p + 8 := h2
    have h1' : p < j := h1
    have e : j % 8 = p % 8 := Option.some.inj he
    omega
  · intro i j s h1 h2 hi he
    have h2' : j < i + 8 := h2
    have e1 : i % 8 = s := Option.some.inj hi
    have e2 : j % 8 = s := Option.some.inj he
    omega

/-- **C157.** The four-stage pipeline of the GEMM: whatever the schedule, every tile is multiplied
from its own activations and weights. -/
theorem C157_weights (n words : Nat) (owner : Nat → Nat) (needs : Nat → Nat → Bool)
    (val : Nat → Nat → Nat) : (weightPipe n words owner needs val).Faithful id := by
  apply PipeCfg.Safe.faithful
  refine ⟨Nat.le_of_ble_eq_true rfl, fun p _ => le_refl p, fun p _ => rfl, ?_, ?_⟩
  · intro p j _ _ h1 h2 he
    have h2' : j < p + 4 := h2
    have h1' : p < j := h1
    have e : j % 4 = p % 4 := Option.some.inj he
    omega
  · intro i j s h1 h2 hi he
    have h2' : j < i + 4 := h2
    have e1 : i % 4 = s := Option.some.inj hi
    have e2 : j % 4 = s := Option.some.inj he
    omega

/-- **C157.** If every tile fetches its own scales and zero points (a scale group is not longer
than a tile of the kernel), every tile is computed with the scales of its own group, whatever the
schedule. -/
theorem C157_scales_partial (n words : Nat) (needs : Nat → Nat → Bool) (val : Nat → Nat → Nat) :
    (scalePipe 1 n words needs val).Faithful id := by
  apply PipeCfg.Safe.faithful
  have hw : ∀ j, (scalePipe 1 n words needs val).wr j = some (j % 4) := by
    intro j; simp [scalePipe, Nat.mod_one]
  have hr : ∀ j, (scalePipe 1 n words needs val).rd j = j % 4 := by
    intro j; simp [scalePipe]
  refine ⟨Nat.le_of_ble_eq_true rfl, fun p _ => le_refl p, fun p _ => by rw [hw, hr]; rfl, ?_, ?_⟩
  · intro p j _ _ h1 h2 he
    have h2' : j < p + 4 := h2
    have h1' : p < j := h1
    rw [hw, hr] at he
    have e := Option.some.inj he
    omega
  · intro i j s h1 h2 hi he
    have h2' : j < i + 4 := h2
    rw [hw] at hi he
    have e1 := Option.some.inj hi
    have e2 := Option.some.inj he
    omega

/-- The tile whose copies hold the scales of tile `p` when a group spans `g` tiles. -/
def groupStart (g p : Nat) : Nat := g * (p / g)

/-- **C157**, groups of two tiles (group size 128 with 64-row tiles): right as long as a thread
block has at most four tiles in a column. -/
theorem C157_wide_scales_partial (n words : Nat) (needs : Nat → Nat → Bool) (val : Nat → Nat → Nat)
    (hn : n ≤ 4) : (scalePipe 2 n words needs val).Faithful (groupStart 2) := by
  apply PipeCfg.Safe.faithful
  have hw : ∀ j, (scalePipe 2 n words needs val).wr j = if j % 4 % 2 = 0 then some (j % 4) else none :=
    fun j => rfl
  have hr : ∀ j, (scalePipe 2 n words needs val).rd j = 2 * (j % 4 / 2) := fun j => rfl
  refine ⟨Nat.le_of_ble_eq_true rfl, fun p _ => by unfold groupStart; omega, fun p _ => ?_, ?_, ?_⟩
  · unfold groupStart
    rw [hw, hr, if_pos (by omega)]
    congr 1; omega
  · intro p j hp hj h1 h2 he
    have hp' : p < n := hp
    have hj' : j < n := hj
    unfold groupStart at h1
    rw [hw, hr] at he
    split_ifs at he with h0
    have e := Option.some.inj he
    omega
  · intro i j s h1 h2 hi he
    have h2' : j < i + 4 := h2
    rw [hw] at hi he
    split_ifs at hi he
    have e1 := Option.some.inj hi
    have e2 := Option.some.inj he
    omega

/-- The two-thread pipeline of the counterexample: thread 0 copies the one word, both read it. -/
def racePipe (n : Nat) (val : Nat → Nat → Nat) : PipeCfg :=
  scalePipe 2 n 1 (fun t _ => decide (t < 2)) val

/-- A quiet moment at the beginning of a phase. -/
structure Quiet (c : PipeCfg) (mem : Nat → Nat → Nat) (p v : Nat) (σ : Pipe) : Prop where
  reach : Pipe.Reach c (Pipe.start mem) σ
  phase : σ.phase = p
  issued : σ.issued = fun _ _ => false
  pend : ∀ j x, σ.pend j x = false
  read : σ.read = fun _ _ => none
  slot : σ.mem 0 0 = v

theorem race_phase1 (n : Nat) (hn : 5 ≤ n) (val mem : Nat → Nat → Nat) :
    ∃ σ, Quiet (racePipe n val) mem 1 (val 0 0) σ := by
  have hz : ∀ x, x < (racePipe n val).words → x = 0 := by
    intro x hx; simp [racePipe, scalePipe] at hx; exact hx
  refine ⟨_, ⟨.step (.step (.step (.step (.step .init
    (.issue _ 0 0 0 rfl Nat.zero_lt_one (show 0 < n by omega) rfl rfl (fun _ h => absurd h (by simp [Pipe.start]))))
    (.issue _ 2 0 2 rfl Nat.zero_lt_one (show 2 < n by omega) rfl rfl (fun _ h => absurd h (by simp [Pipe.start]))))
    (.land _ 0 0 0 rfl rfl)) (.land _ 2 0 2 rfl rfl)) (.sync _ ?_ ?_ ?_), rfl, rfl, ?_, rfl, ?_⟩⟩
  · intro j x hd hx hj hw
    obtain rfl := hz x hx
    simp [PipeCfg.duty, racePipe, scalePipe, Pipe.start] at hd hw ⊢
    have hj3 : j < 3 := by omega
    interval_cases j <;> simp_all [upd2]
  · intro h; simp [Pipe.start] at h
  · intro j x _
    simp only [upd2, Pipe.start]
    split_ifs <;> rfl
  · intro j x
    simp only [upd2, Pipe.start]
    split_ifs <;> rfl
  · simp [upd2, racePipe, scalePipe]

theorem race_phase2 (n : Nat) (hn : 5 ≤ n) (val mem : Nat → Nat → Nat) :
    ∃ σ, Quiet (racePipe n val) mem 2 (val 0 0) σ := by
  have hz : ∀ x, x < (racePipe n val).words → x = 0 := by
    intro x hx; simp [racePipe, scalePipe] at hx; exact hx
  obtain ⟨σ, hr, hp, hi, hpe, hre, hm⟩ := race_phase1 n hn val mem
  have ht : σ.phase - 1 < (racePipe n val).n := by rw [hp]; show 0 < n; omega
  refine ⟨_, ⟨.step (.step (.step hr (.load _ 0 0 (by omega) ht Nat.zero_lt_one rfl))
    (.load _ 1 0 (by dsimp only; omega) ht Nat.zero_lt_one rfl)) (.sync _ ?_ ?_ ?_), ?_, rfl, ?_, rfl, ?_⟩⟩
  · intro j x hd hx hj hw
    simp only [PipeCfg.duty, hp, racePipe, scalePipe] at hd hw
    simp at hd
    obtain rfl : j = 3 := by omega
    simp at hw
  · intro _ _ t x hx ht
    obtain rfl := hz x hx
    simp [racePipe, scalePipe] at ht
    interval_cases t <;> simp [upd2]
  · intro j x _; exact hpe j x
  · show σ.phase + 1 = 2; omega
  · exact hpe
  · exact hm

/-- **C157, violated.** With groups of two tiles and at least five tiles there is a schedule in
which a thread computes tile 1 with the scales of tile 4's group: another thread has read its
scales and issued the copy for tile 4 into the same place before the slow thread reads. -/
theorem C157_wide_scales_violated (n : Nat) (hn : 5 ≤ n) (val mem : Nat → Nat → Nat) :
    ∃ σ, Pipe.Reach (racePipe n val) (Pipe.start mem) σ ∧ 2 < σ.phase ∧
      (racePipe n val).needs 1 0 = true ∧
      σ.got 1 0 0 = some (val (groupStart 2 1) 0) ∧ σ.got 1 1 0 = some (val 4 0) := by
  have hz : ∀ x, x < (racePipe n val).words → x = 0 := by
    intro x hx; simp [racePipe, scalePipe] at hx; exact hx
  obtain ⟨σ, hr, hp, hi, hpe, hre, hm⟩ := race_phase2 n hn val mem
  have ht : σ.phase - 1 < (racePipe n val).n := by rw [hp]; show 1 < n; omega
  have hp1 : σ.phase - 1 = 1 := by omega
  have hd4 : (racePipe n val).duty σ.phase 4 = true := by rw [hp]; rfl
  have hi4 : σ.issued 4 0 = false := by rw [hi]
  refine ⟨_, .step (.step (.step (.step (.step hr (.load _ 0 0 (by omega) ht Nat.zero_lt_one rfl))
    (.issue _ 4 0 0 hd4 Nat.zero_lt_one (show 4 < n by omega) rfl hi4 ?_)) (.land _ 4 0 0 ?_ rfl))
    (.load _ 1 0 (by dsimp only; omega) ht Nat.zero_lt_one rfl)) (.sync _ ?_ ?_ ?_), ?_, rfl, ?_, ?_⟩
  · intro _ _ y hy _
    obtain rfl := hz y hy
    simp [upd2, racePipe, scalePipe]
  · simp [upd2]
  · intro j x hd hx hj hw
    obtain rfl := hz x hx
    simp only [PipeCfg.duty, hp, racePipe, scalePipe] at hd
    simp at hd
    obtain rfl : j = 4 := by omega
    simp [upd2]
  · intro _ _ t x hx ht
    obtain rfl := hz x hx
    simp [racePipe, scalePipe] at ht
    interval_cases t <;> simp [upd2]
  · intro j x _
    simp only [upd2]
    split_ifs <;> first | rfl | exact hpe j x
  · show 2 < σ.phase + 1; omega
  · simp [upd2, hp, hm, racePipe, scalePipe, groupStart]
  · simp [upd2, hp, racePipe, scalePipe]

/-- The wide groups do occur: group size 128 with the 64-row tiles that every launch of more than
one row block tries first, and two different groups have different scales in general. -/
example : 128 / 16 / (64 / 16) = 2 ∧ groupStart 2 1 / 2 ≠ groupStart 2 4 / 2 := by decide

/-- Non-vacuity of the positive theorems: pipelines do run (two phases of the pipeline above). -/
example : ∃ σ, Pipe.Reach (racePipe 5 (fun j _ => j)) (Pipe.start fun _ _ => 0) σ ∧ σ.phase = 2 := by
  obtain ⟨σ, h⟩ := race_phase2 5 (by omega) (fun j _ => j) (fun _ _ => 0)
  exact ⟨σ, h.reach, h.phase⟩

/-- **C156, C157.** Pipelines never get stuck: in every state in which every tile's copies have a
slot, some copy can be issued or land, some thread can read a word it has not read, or the phase
can end. -/
theorem C157_pipeline_live (c : PipeCfg) (mem : Nat → Nat → Nat) (src : Nat → Nat) (hs : c.Safe src)
    (hslot : ∀ j x (σ : Pipe), Pipe.Reach c (Pipe.start mem) σ → σ.pend j x = true → c.wr j ≠ none)
    (σ : Pipe) (hreach : Pipe.Reach c (Pipe.start mem) σ) :
    ∃ τ, Pipe.Step c σ τ ∧
      ((∃ j x, σ.issued j x = false ∧ τ.issued j x = true) ∨
       (∃ j x, σ.pend j x = true ∧ τ.pend j x = false) ∨
       (∃ t x, σ.read t x = none ∧ τ.read t x ≠ none) ∨ τ.phase = σ.phase + 1) := by
  by_cases hr : 0 < σ.phase → σ.phase - 1 < c.n → ∀ t x, x < c.words → c.needs t x = true →
      σ.read t x ≠ none
  · by_cases hI : ∀ j x, c.duty σ.phase j = true → x < c.words → j < c.n → c.wr j ≠ none →
        σ.issued j x = true
    · by_cases hw : ∀ j x, j + (c.S - 2) < σ.phase + (c.S - 1) → σ.pend j x = false
      · exact ⟨_, .sync σ hI hr hw, Or.inr (Or.inr (Or.inr rfl))⟩
      · push Not at hw
        obtain ⟨j, x, _, hp⟩ := hw
        have hp' : σ.pend j x = true := by simpa using hp
        obtain ⟨s, hsl⟩ := Option.ne_none_iff_exists'.1 (hslot j x σ hreach hp')
        exact ⟨_, .land σ j x s hp' hsl, Or.inr (Or.inl ⟨j, x, hp', upd2_self _ _ _ _⟩)⟩
    · push Not at hI
      obtain ⟨j, x, hd, hx, hj, hsl, hn⟩ := hI
      have hn' : σ.issued j x = false := by simpa using hn
      obtain ⟨s, hs'⟩ := Option.ne_none_iff_exists'.1 hsl
      have hge := PipeCfg.duty_lt hs.stages hd
      by_cases h0 : 0 < σ.phase
      · have hpn : σ.phase - 1 < c.n := by
          have := PipeCfg.duty_ge hs.stages hd; omega
        exact ⟨_, .issue σ j x s hd hx hj hs' hn' (fun _ _ y hy hne => hr h0 hpn _ y hy hne),
          Or.inl ⟨j, x, hn', upd2_self _ _ _ _⟩⟩
      · exact ⟨_, .issue σ j x s hd hx hj hs' hn' (fun _ h => absurd h h0),
          Or.inl ⟨j, x, hn', upd2_self _ _ _ _⟩⟩
  · push Not at hr
    obtain ⟨h0, ht, t, x, hx, hne, hn⟩ := hr
    exact ⟨_, .load σ t x h0 ht hx hne, Or.inr (Or.inr (Or.inl ⟨t, x, hn, by simp [upd2]⟩))⟩

end Verif.Marlin
