import Verif.Pool.Inv
import Verif.Pool.Slots
/- C29: parallel loops. -/
namespace Verif.Pool

variable {cfg : Cfg} {st : State}

/-! ### Safety -/

/-- Every completed parallel loop called its body exactly once for each value of the loop variable, for every
loop bound, thread count and interleaving, when each calling thread uses a slot of its own. Missing from the
full property: the step must divide the range (else the pool writes out of bounds, `index_buffer_violated`)
and calling threads must not share a slot (`shared_slot_violated`). -/
theorem parallel_for_exactly_once_partial (hT : 0 < cfg.T) (hx : Exclusive cfg) (h : Reachable cfg st) :
    ∀ p ∈ st.done, p.2.Nodup ∧ ∀ x, x ∈ p.2 ↔ IsIter p.1 x := by
  intro p hp
  obtain ⟨h1, h2⟩ := (h.inv hT hx).done p hp
  exact ⟨h2.nodup_iff.2 (nodup_iters h1), fun x => by rw [h2.mem_iff]; exact mem_iters h1 x⟩

/-- At no point of any execution has the body been called twice for the same value, nor for a value outside
the loop. -/
theorem parallel_for_at_most_once (hT : 0 < cfg.T) (hx : Exclusive cfg) (h : Reachable cfg st) (c : Nat)
    (hc : st.pc c ≠ .idle) : (st.log c).Nodup ∧ ∀ x ∈ st.log c, IsIter (st.task c) x := by
  have hi := h.inv hT hx
  have key : ∀ rest, (st.log c ++ rest).Perm (st.task c).iters → 0 < (st.task c).step →
      (st.log c).Nodup ∧ ∀ x ∈ st.log c, IsIter (st.task c) x := by
    intro rest hp hst
    have hn := hp.nodup_iff.2 (nodup_iters hst)
    refine ⟨(List.nodup_append.1 hn).1, fun x hx => ?_⟩
    exact (mem_iters hst x).1 (hp.mem_iff.1 (List.mem_append_left _ hx))
  cases hp : st.pc c with
  | idle => exact absurd hp hc
  | seq rest =>
    obtain ⟨h1, h2⟩ := hi.seq c rest hp
    exact key rest (List.Perm.of_eq h2) h1
  | setting i =>
    obtain ⟨s, _, _, h1, _, h2⟩ := hi.par c (by rw [hp]; trivial)
    exact key _ h2 h1
  | main c' rest =>
    obtain ⟨s, _, _, h1, _, h2⟩ := hi.par c (by rw [hp]; trivial)
    exact key _ h2 h1
  | waiting i =>
    obtain ⟨s, _, _, h1, _, h2⟩ := hi.par c (by rw [hp]; trivial)
    exact key _ h2 h1

theorem step_fault (l : Label) (hl : ∀ c t, l = .push c t → t.step ∣ t.stop - t.start) (h : st.fault = false) :
    (step cfg st l).fault = false := by
  unfold step
  rw [if_neg (by simp [h])]
  cases l with
  | avail n => exact h
  | work i =>
    simp only
    split_ifs
    · unfold work
      repeat' split
      all_goals exact h
    · exact h
  | tick c =>
    simp only
    unfold tick tickAt
    repeat' split
    all_goals exact h
  | push c t =>
    simp only
    unfold push
    by_cases hi : st.pc c = .idle ∧ 0 < t.step
    · rw [if_pos hi]
      by_cases h1 : t.tiles ≤ 1
      · rw [if_pos h1]; exact h
      · rw [if_neg h1]
        cases cfg.slot c with
        | none => exact h
        | some s =>
          simp only
          by_cases ha : st.avail = 0
          · rw [if_pos ha]; exact h
          · rw [if_neg ha]
            have hle : t.start ≤ t.stop := by
              by_contra hc
              push Not at hc
              have h2 : (-(t.stop - t.start)).tdiv t.step = - t.tiles := Int.neg_tdiv ..
              have h3 : 0 ≤ (-(t.stop - t.start)).tdiv t.step := Int.tdiv_nonneg (by omega) (by omega)
              omega
            unfold startPar
            rw [if_neg (by rw [iters_length hi.2 (hl c t rfl) hle]; omega)]
            exact h
    · rw [if_neg hi]; exact h

/-- If the step of every loop divides its range, the index buffer is never written out of bounds. -/
theorem index_buffer_in_bounds_partial (ls : List Label)
    (hl : ∀ c t, Label.push c t ∈ ls → t.step ∣ t.stop - t.start) : (run cfg ls .init).fault = false := by
  suffices H : ∀ st : State, st.fault = false → (run cfg ls st).fault = false from H _ rfl
  induction ls with
  | nil => intro st h; exact h
  | cons l ls ih =>
    intro st h
    refine ih (fun c t ht => hl c t (List.mem_cons_of_mem _ ht)) _ (step_fault l ?_ h)
    rintro c t rfl
    exact hl c t List.mem_cons_self

/-- `for (i = 0; i < 5; i += 2)` has three iterations, the buffer two entries. -/
theorem index_buffer_violated : ∃ cfg ls, 0 < cfg.T ∧ Exclusive cfg ∧ (run cfg ls .init).fault = true :=
  ⟨⟨2, 2, fun c => if c = 0 then some 0 else none⟩, [.avail 1, .push 0 ⟨0, 5, 2⟩], by decide,
    by
      intro c c' s h h'
      by_cases h0 : c = 0 <;> by_cases h1 : c' = 0 <;> simp_all, rfl⟩

/-- All callers of the CPU backend pass the same slot (`CPUBackend::taskIndex`). Two loops pushed concurrently
then interfere: the first returns without having run a single iteration. -/
theorem shared_slot_violated : ∃ ls, ((⟨0, 2, 1⟩, []) : Task × List Int) ∈
    (run ⟨2, 2, fun _ => some 0⟩ ls .init).done :=
  ⟨[.avail 1, .push 0 ⟨0, 2, 1⟩, .push 1 ⟨0, 2, 1⟩, .tick 0, .work 1, .work 1, .work 1, .work 1, .tick 0,
    .tick 0, .tick 0, .tick 0, .tick 0], by decide⟩

/-! ### Progress -/

/-- Only thread `i`'s flags and state change, and flags are only cleared. -/
structure WFrame (P : Nat → Prop) (st st' : State) : Prop where
  pc : st'.pc = st.pc
  task : st'.task = st.task
  avail : st'.avail = st.avail
  fault : st'.fault = st.fault
  flag : ∀ s i, st'.flag s i = true → st.flag s i = true
  w : ∀ i, ¬ P i → st'.w i = st.w i

theorem WFrame.refl (P : Nat → Prop) (st : State) : WFrame P st st := ⟨rfl, rfl, rfl, rfl, fun _ _ h => h, fun _ _ => rfl⟩

theorem WFrame.trans {P : Nat → Prop} {a b c : State} (h : WFrame P a b) (h' : WFrame P b c) : WFrame P a c :=
  ⟨h'.pc.trans h.pc, h'.task.trans h.task, h'.avail.trans h.avail, h'.fault.trans h.fault,
    fun s i hf => h.flag s i (h'.flag s i hf), fun i hi => (h'.w i hi).trans (h.w i hi)⟩

theorem WFrame.mono {P Q : Nat → Prop} {a b : State} (h : WFrame P a b) (hPQ : ∀ i, P i → Q i) : WFrame Q a b :=
  ⟨h.pc, h.task, h.avail, h.fault, h.flag, fun i hi => h.w i fun hp => hi (hPQ i hp)⟩

theorem run_append (cfg : Cfg) (l l' : List Label) (st : State) :
    run cfg (l ++ l') st = run cfg l' (run cfg l st) := by simp [run]

theorem run_cons (cfg : Cfg) (l : Label) (l' : List Label) (st : State) :
    run cfg (l :: l') st = run cfg l' (step cfg st l) := rfl

theorem step_work {i : Nat} (hf : st.fault = false) (hi : 1 ≤ i ∧ i < cfg.T) :
    step cfg st (.work i) = work cfg st i := by
  unfold step
  rw [if_neg (by simp [hf])]
  simp [hi]

/-- A worker inside a closure finishes it. -/
theorem drive_run {i : Nat} (hi : 1 ≤ i ∧ i < cfg.T) (s c : Nat) (rest : List Int) : ∀ st : State,
    st.fault = false → st.w i = .run s c rest → ∃ n, WFrame (· = i) st (run cfg (List.replicate n (.work i)) st) ∧
      (run cfg (List.replicate n (.work i)) st).w i = .scan (s + 1) ∧
      (run cfg (List.replicate n (.work i)) st).flag s i = false := by
  induction rest with
  | nil =>
    intro st hf hw
    refine ⟨1, ?_⟩
    rw [List.replicate_one, run_cons, step_work hf hi]
    simp only [work, hw]
    refine ⟨⟨rfl, rfl, rfl, rfl, ?_, ?_⟩, by simp [run], by simp [run]⟩
    · intro s2 i2 h2
      change Function.update st.flag s (Function.update (st.flag s) i false) s2 i2 = true at h2
      by_cases h3 : s2 = s
      · subst h3
        by_cases h4 : i2 = i
        · subst h4; simp at h2
        · simpa [Function.update_of_ne h4] using h2
      · simpa [Function.update_of_ne h3] using h2
    · intro i2 h2
      change Function.update st.w i _ i2 = _
      simp [h2]
  | cons x rest ih =>
    intro st hf hw
    have hstep : work cfg st i = { st with w := Function.update st.w i (.run s c rest), log := Function.update st.log c (st.log c ++ [x]) } := by
      simp only [work, hw]
    obtain ⟨n, h1, h2, h3⟩ := ih (work cfg st i) (by rw [hstep]; exact hf) (by rw [hstep]; simp)
    refine ⟨n + 1, ?_⟩
    rw [List.replicate_succ, run_cons, step_work hf hi]
    refine ⟨WFrame.trans ?_ h1, h2, h3⟩
    rw [hstep]
    exact ⟨rfl, rfl, rfl, rfl, fun _ _ h => h, fun i2 h2 => by simp [h2]⟩

/-- A worker scans to the end and leaves no flag set from slot `a` on. -/
theorem drive_scan {i : Nat} (hi : 1 ≤ i ∧ i < cfg.T) : ∀ (m a : Nat), cfg.S - a = m → a ≤ cfg.S →
    ∀ st : State, st.fault = false → st.w i = .scan a →
    ∃ n, WFrame (· = i) st (run cfg (List.replicate n (.work i)) st) ∧
      (run cfg (List.replicate n (.work i)) st).w i = .scan cfg.S ∧
      ∀ s, a ≤ s → s < cfg.S → (run cfg (List.replicate n (.work i)) st).flag s i = false := by
  intro m
  induction m with
  | zero =>
    intro a ha hle st hf hw
    refine ⟨0, WFrame.refl _ _, ?_, fun s h1 h2 => by omega⟩
    rw [show cfg.S = a by omega]
    exact hw
  | succ m ih =>
    intro a ha hle st hf hw
    by_cases hfl : st.flag a i = true
    · have hstep : work cfg st i
          = { st with w := Function.update st.w i (.run a (st.fn a).1 (share cfg.T (st.fn a).2 i)) } := by
        simp only [work, hw]
        rw [if_pos (by omega), if_pos hfl]
      have hfr : WFrame (· = i) st (work cfg st i) := by
        rw [hstep]
        exact ⟨rfl, rfl, rfl, rfl, fun _ _ h => h, fun i2 h2 => by simp [h2]⟩
      obtain ⟨n1, h1, h2, h3⟩ := drive_run hi a (st.fn a).1 (share cfg.T (st.fn a).2 i) (work cfg st i)
        (by rw [hfr.fault]; exact hf) (by rw [hstep]; simp)
      obtain ⟨n2, g1, g2, g3⟩ := ih (a + 1) (by omega) (by omega) _ (by rw [h1.fault, hfr.fault]; exact hf) h2
      refine ⟨1 + (n1 + n2), ?_⟩
      rw [List.replicate_add, List.replicate_add, run_append, run_append, List.replicate_one, run_cons,
        step_work hf hi]
      refine ⟨(hfr.trans h1).trans g1, g2, fun s hs hs' => ?_⟩
      by_cases he : s = a
      · subst he
        by_contra hc
        have := g1.flag _ _ (Bool.not_eq_false _ ▸ hc)
        change (run cfg (List.replicate n1 (.work i)) (work cfg st i)).flag s i = true at this
        rw [h3] at this
        simp at this
      · exact g3 s (by omega) hs'
    · have hstep : work cfg st i = { st with w := Function.update st.w i (.scan (a + 1)) } := by
        simp only [work, hw]
        rw [if_pos (by omega), if_neg hfl]
      have hfr : WFrame (· = i) st (work cfg st i) := by
        rw [hstep]
        exact ⟨rfl, rfl, rfl, rfl, fun _ _ h => h, fun i2 h2 => by simp [h2]⟩
      obtain ⟨n2, g1, g2, g3⟩ := ih (a + 1) (by omega) (by omega) (work cfg st i)
        (by rw [hfr.fault]; exact hf) (by rw [hstep]; simp)
      refine ⟨1 + n2, ?_⟩
      rw [List.replicate_add, run_append, List.replicate_one, run_cons, step_work hf hi]
      refine ⟨hfr.trans g1, g2, fun s hs hs' => ?_⟩
      by_cases he : s = a
      · subst he
        by_contra hc
        have := (hfr.trans g1).flag s i (Bool.not_eq_false _ ▸ hc)
        exact hfl this
      · exact g3 s (by omega) hs'

/-- Scans never leave the range of slots. -/
def ScanOk (cfg : Cfg) (st : State) : Prop :=
  ∀ i, (∀ a, st.w i = .scan a → a ≤ cfg.S) ∧ ∀ s c r, st.w i = .run s c r → s < cfg.S

theorem step_scanOk (h : ScanOk cfg st) (l : Label) : ScanOk cfg (step cfg st l) := by
  have hw : ∀ i p, (∀ a, p = .scan a → a ≤ cfg.S) → (∀ s c r, p = .run s c r → s < cfg.S) →
      ∀ st' : State, st'.w = Function.update st.w i p → ScanOk cfg st' := by
    intro i p h1 h2 st' he i2
    by_cases hi : i2 = i
    · subst hi
      rw [he, Function.update_self]
      exact ⟨h1, h2⟩
    · rw [he, Function.update_of_ne hi]
      exact h i2
  have hsame : ∀ st' : State, st'.w = st.w → ScanOk cfg st' := by
    intro st' he i2
    rw [he]
    exact h i2
  unfold step
  by_cases hf : st.fault = true
  · rw [if_pos hf]; exact h
  rw [if_neg hf]
  cases l with
  | avail n => exact hsame _ rfl
  | push c t =>
    simp only
    unfold push startPar startSeq
    repeat' split
    all_goals exact hsame _ rfl
  | tick c =>
    simp only
    unfold tick tickAt
    repeat' split
    all_goals exact hsame _ rfl
  | work i =>
    simp only
    split_ifs
    · unfold work
      cases hp : st.w i with
      | check =>
        simp only
        split_ifs
        · exact hw i (.scan 0) (by rintro a ⟨⟩; omega) (by simp) _ rfl
        · exact h
      | scan s =>
        simp only
        by_cases hs : s < cfg.S
        · rw [if_pos hs]
          split_ifs
          · refine hw i _ (by simp) ?_ _ rfl
            intro s2 c2 r2 he
            simp only [WPc.run.injEq] at he
            omega
          · exact hw i (.scan (s + 1)) (by rintro a ⟨⟩; omega) (by simp) _ rfl
        · rw [if_neg hs]
          exact hw i .check (by simp) (by simp) _ rfl
      | run s c rest =>
        have h1 := (h i).2 s c rest hp
        cases rest with
        | nil => exact hw i (.scan (s + 1)) (by rintro a ⟨⟩; omega) (by simp) _ rfl
        | cons x rest =>
          refine hw i (.run s c rest) (by simp) ?_ _ rfl
          intro s2 c2 r2 he
          simp only [WPc.run.injEq] at he
          omega
    · exact h

theorem run_scanOk (ls : List Label) : ∀ {st}, ScanOk cfg st → ScanOk cfg (run cfg ls st) := by
  induction ls with
  | nil => intro st h; exact h
  | cons l ls ih => intro st h; exact ih (step_scanOk h l)

theorem Reachable.scanOk (h : Reachable cfg st) : ScanOk cfg st := by
  obtain ⟨ls, rfl⟩ := h
  exact run_scanOk ls (by intro i; simp [State.init])

/-- While the pool is active, a worker can clear all its flags by itself. -/
theorem drive_worker {i : Nat} (hi : 1 ≤ i ∧ i < cfg.T) (st : State) (hf : st.fault = false)
    (ha : 0 < st.avail) (hs : ScanOk cfg st) :
    ∃ n, WFrame (· = i) st (run cfg (List.replicate n (.work i)) st) ∧
      ∀ s < cfg.S, (run cfg (List.replicate n (.work i)) st).flag s i = false := by
  have fromCheck : ∀ st : State, st.fault = false → 0 < st.avail → st.w i = .check →
      ∃ n, WFrame (· = i) st (run cfg (List.replicate n (.work i)) st) ∧
      ∀ s < cfg.S, (run cfg (List.replicate n (.work i)) st).flag s i = false := by
    intro st hf ha hw
    have hstep : work cfg st i = { st with w := Function.update st.w i (.scan 0) } := by
      simp only [work, hw]
      rw [if_pos ha]
    have hfr : WFrame (· = i) st (work cfg st i) := by
      rw [hstep]
      exact ⟨rfl, rfl, rfl, rfl, fun _ _ h => h, fun i2 h2 => by simp [h2]⟩
    obtain ⟨n, h1, _, h3⟩ := drive_scan hi (cfg.S - 0) 0 rfl (by omega) (work cfg st i)
      (by rw [hfr.fault]; exact hf) (by rw [hstep]; simp)
    refine ⟨1 + n, ?_⟩
    rw [List.replicate_add, run_append, List.replicate_one, run_cons, step_work hf hi]
    exact ⟨hfr.trans h1, fun s hs => h3 s (by omega) hs⟩
  have fromScan : ∀ (st : State) (a : Nat), st.fault = false → 0 < st.avail → st.w i = .scan a → a ≤ cfg.S →
      ∃ n, WFrame (· = i) st (run cfg (List.replicate n (.work i)) st) ∧
      ∀ s < cfg.S, (run cfg (List.replicate n (.work i)) st).flag s i = false := by
    intro st a hf ha hw hle
    obtain ⟨n1, h1, h2, _⟩ := drive_scan hi (cfg.S - a) a rfl hle st hf hw
    set st1 := run cfg (List.replicate n1 (.work i)) st with hst1
    have hf1 : st1.fault = false := by rw [h1.fault]; exact hf
    have hstep : work cfg st1 i = { st1 with w := Function.update st1.w i .check } := by
      simp only [work, h2]
      rw [if_neg (by omega)]
    have hfr : WFrame (· = i) st1 (work cfg st1 i) := by
      rw [hstep]
      exact ⟨rfl, rfl, rfl, rfl, fun _ _ h => h, fun i2 h2 => by simp [h2]⟩
    obtain ⟨n2, g1, g2⟩ := fromCheck (work cfg st1 i) (by rw [hfr.fault]; exact hf1)
      (by rw [hfr.avail, h1.avail]; exact ha) (by rw [hstep]; simp)
    refine ⟨n1 + (1 + n2), ?_⟩
    rw [List.replicate_add, List.replicate_add, run_append, run_append, ← hst1, List.replicate_one, run_cons,
      step_work hf1 hi]
    exact ⟨(h1.trans hfr).trans g1, g2⟩
  cases hw : st.w i with
  | check => exact fromCheck st hf ha hw
  | scan a => exact fromScan st a hf ha hw ((hs i).1 a hw)
  | run s c rest =>
    have hlt := (hs i).2 s c rest hw
    obtain ⟨n1, h1, h2, _⟩ := drive_run hi s c rest st hf hw
    obtain ⟨n2, g1, g2⟩ := fromScan _ (s + 1) (by rw [h1.fault]; exact hf) (by rw [h1.avail]; exact ha) h2 (by omega)
    refine ⟨n1 + n2, ?_⟩
    rw [List.replicate_add, run_append]
    exact ⟨h1.trans g1, g2⟩

/-- Steps of the pool's own threads. -/
def Own (c : Nat) (ls : List Label) : Prop := ∀ l ∈ ls, l = .tick c ∨ ∃ i, l = .work i

theorem Own.append {c : Nat} {l l' : List Label} (h : Own c l) (h' : Own c l') : Own c (l ++ l') := by
  intro x hx
  rcases List.mem_append.1 hx with hx | hx
  · exact h x hx
  · exact h' x hx

theorem own_replicate (c n i : Nat) : Own c (List.replicate n (.work i)) :=
  fun _ hx => .inr ⟨i, List.eq_of_mem_replicate hx⟩

/-- All workers below `m` clear their flags. -/
theorem drive_workers (c : Nat) : ∀ m ≤ cfg.T, ∀ st : State, st.fault = false → 0 < st.avail → ScanOk cfg st →
    ∃ ls, Own c ls ∧ WFrame (fun _ => True) st (run cfg ls st) ∧
      ∀ i, 1 ≤ i → i < m → ∀ s < cfg.S, (run cfg ls st).flag s i = false := by
  intro m
  induction m with
  | zero => intro _ st _ _ _; exact ⟨[], by simp [Own], WFrame.refl _ _, fun i _ h => by omega⟩
  | succ m ih =>
    intro hm st hf ha hs
    obtain ⟨ls, h1, h2, h3⟩ := ih (by omega) st hf ha hs
    by_cases h0 : 1 ≤ m
    · obtain ⟨n, g1, g2⟩ := drive_worker (cfg := cfg) (i := m) ⟨h0, by omega⟩ (run cfg ls st)
        (by rw [h2.fault]; exact hf) (by rw [h2.avail]; exact ha) (run_scanOk ls hs)
      refine ⟨ls ++ List.replicate n (.work m), h1.append (own_replicate _ _ _), ?_, ?_⟩
      · rw [run_append]
        exact h2.trans (g1.mono fun _ _ => trivial)
      · rw [run_append]
        intro i hi hlt s hs'
        by_cases he : i = m
        · subst he; exact g2 s hs'
        · by_contra hc
          have := g1.flag s i (by simpa using hc)
          rw [h3 i hi (by omega) s hs'] at this
          simp at this
    · exact ⟨ls, h1, h2, fun i hi hlt s hs' => by omega⟩

theorem step_tick {c : Nat} (hf : st.fault = false) : step cfg st (.tick c) = tick cfg st c := by
  unfold step
  rw [if_neg (by simp [hf])]

/-- The calling thread runs its own share and starts waiting. -/
theorem drive_main {c s : Nat} (hs : cfg.slot c = some s) (c' : Nat) (rest : List Int) : ∀ st : State,
    st.fault = false → st.pc c = .main c' rest →
    ∃ ls, Own c ls ∧ (run cfg ls st).pc c = .waiting 1 ∧ (run cfg ls st).fault = false ∧
      (run cfg ls st).avail = st.avail := by
  induction rest with
  | nil =>
    intro st hf hp
    refine ⟨[.tick c], by simp [Own], ?_⟩
    rw [run_cons, step_tick hf]
    simp [run, tick, tickAt, hp, hs, hf]
  | cons x rest ih =>
    intro st hf hp
    have hstep : tick cfg st c = { st with pc := Function.update st.pc c (.main c' rest), log := Function.update st.log c' (st.log c' ++ [x]) } := by
      simp [tick, tickAt, hp, hs]
    obtain ⟨ls, h1, h2⟩ := ih (tick cfg st c) (by rw [hstep]; exact hf) (by rw [hstep]; simp)
    refine ⟨.tick c :: ls, ?_, ?_⟩
    · intro l hl
      rcases List.mem_cons.1 hl with rfl | hl
      · exact .inl rfl
      · exact h1 l hl
    · rw [run_cons, step_tick hf]
      refine ⟨h2.1, h2.2.1, h2.2.2.trans ?_⟩
      rw [hstep]

theorem drive_setting {c s : Nat} (hs : cfg.slot c = some s) : ∀ (m i : Nat) (st : State),
    parts cfg.T (st.task c).iters - i = m → st.fault = false → st.pc c = .setting i →
    ∃ ls, Own c ls ∧ (run cfg ls st).pc c = .waiting 1 ∧ (run cfg ls st).fault = false ∧
      (run cfg ls st).avail = st.avail := by
  intro m
  have cont : ∀ (st : State) (st1 : State), st.fault = false → tick cfg st c = st1 → st1.avail = st.avail →
      (∃ ls, Own c ls ∧ (run cfg ls st1).pc c = .waiting 1 ∧ (run cfg ls st1).fault = false ∧
        (run cfg ls st1).avail = st1.avail) →
      ∃ ls, Own c ls ∧ (run cfg ls st).pc c = .waiting 1 ∧ (run cfg ls st).fault = false ∧
        (run cfg ls st).avail = st.avail := by
    rintro st st1 hf rfl hav ⟨ls, h1, h2⟩
    refine ⟨.tick c :: ls, ?_, ?_⟩
    · intro l hl
      rcases List.mem_cons.1 hl with rfl | hl
      · exact .inl rfl
      · exact h1 l hl
    · rw [run_cons, step_tick hf]
      exact ⟨h2.1, h2.2.1, h2.2.2.trans hav⟩
  induction m with
  | zero =>
    intro i st hm hf hp
    refine cont st _ hf rfl ?_ ?_
    · simp only [tick, tickAt, hp, hs]
      rw [if_neg (by omega)]
    · refine drive_main hs (st.fn s).1 (share cfg.T (st.fn s).2 0) _ ?_ ?_
      · simp only [tick, tickAt, hp, hs]
        rw [if_neg (by omega)]
        exact hf
      · simp only [tick, tickAt, hp, hs]
        rw [if_neg (by omega)]
        simp
  | succ m ih =>
    intro i st hm hf hp
    have hstep : tick cfg st c = { st with
        flag := Function.update st.flag s (Function.update (st.flag s) i true)
        pc := Function.update st.pc c (.setting (i + 1)) } := by
      simp only [tick, tickAt, hp, hs]
      rw [if_pos (by omega)]
    refine cont st _ hf hstep rfl (ih (i + 1) _ ?_ hf (by simp))
    change parts cfg.T (st.task c).iters - (i + 1) = m
    omega

/-- With all flags cleared the waiting thread returns. -/
theorem drive_wait {c s : Nat} (hs : cfg.slot c = some s) : ∀ (m j : Nat) (st : State),
    parts cfg.T (st.task c).iters - j = m → st.fault = false → st.pc c = .waiting j → 1 ≤ j →
    (∀ i, 1 ≤ i → i < parts cfg.T (st.task c).iters → st.flag s i = false) →
    ∃ ls, Own c ls ∧ (run cfg ls st).pc c = .idle := by
  intro m
  induction m with
  | zero =>
    intro j st hm hf hp hj hfl
    refine ⟨[.tick c], by simp [Own], ?_⟩
    rw [run_cons, step_tick hf]
    simp only [tick, tickAt, hp, hs]
    rw [if_neg (by omega)]
    simp [run]
  | succ m ih =>
    intro j st hm hf hp hj hfl
    have hstep : tick cfg st c = { st with pc := Function.update st.pc c (.waiting (j + 1)) } := by
      simp only [tick, tickAt, hp, hs]
      rw [if_pos (by omega), if_neg (by simp [hfl j hj (by omega)])]
    obtain ⟨ls, h1, h2⟩ := ih (j + 1) (tick cfg st c) (by rw [hstep]; change parts cfg.T (st.task c).iters - (j + 1) = m; omega)
      (by rw [hstep]; exact hf) (by rw [hstep]; simp) (by omega) (by rw [hstep]; exact hfl)
    refine ⟨.tick c :: ls, ?_, ?_⟩
    · intro l hl
      rcases List.mem_cons.1 hl with rfl | hl
      · exact .inl rfl
      · exact h1 l hl
    · rw [run_cons, step_tick hf]
      exact h2

theorem parts_le (T : Nat) (idx : List Int) : parts T idx ≤ T := by
  unfold parts; split_ifs <;> omega

theorem drive_seq {c : Nat} (rest : List Int) : ∀ st : State, st.fault = false → st.pc c = .seq rest →
    ∃ ls, Own c ls ∧ (run cfg ls st).pc c = .idle := by
  induction rest with
  | nil =>
    intro st hf hp
    refine ⟨[.tick c], by simp [Own], ?_⟩
    rw [run_cons, step_tick hf]
    simp [run, tick, hp]
  | cons x rest ih =>
    intro st hf hp
    have hstep : tick cfg st c = { st with pc := Function.update st.pc c (.seq rest), log := Function.update st.log c (st.log c ++ [x]) } := by
      simp [tick, hp]
    obtain ⟨ls, h1, h2⟩ := ih (tick cfg st c) (by rw [hstep]; exact hf) (by rw [hstep]; simp)
    refine ⟨.tick c :: ls, ?_, ?_⟩
    · intro l hl
      rcases List.mem_cons.1 hl with rfl | hl
      · exact .inl rfl
      · exact h1 l hl
    · rw [run_cons, step_tick hf]
      exact h2

/-- No deadlock: as long as the pool stays active, every `push` can run to its end, from every reachable state,
by steps of the calling thread and of the workers alone (no help from other callers is needed). -/
theorem push_completes (hT : 0 < cfg.T) (hx : Exclusive cfg) (hS : ∀ c s, cfg.slot c = some s → s < cfg.S)
    (h : Reachable cfg st) (hf : st.fault = false) (ha : 0 < st.avail) (c : Nat) :
    ∃ ls, Own c ls ∧ (run cfg ls st).pc c = .idle := by
  have hi := h.inv hT hx
  have fromWait : ∀ (st : State) (s : Nat), cfg.slot c = some s → Inv cfg st → ScanOk cfg st → st.fault = false →
      0 < st.avail → (∃ j, st.pc c = .waiting j) → ∃ ls, Own c ls ∧ (run cfg ls st).pc c = .idle := by
    rintro st s hs hi hsc hf ha ⟨j, hp⟩
    obtain ⟨ls, h1, h2, h3⟩ := drive_workers c cfg.T (le_refl _) st hf ha hsc
    obtain ⟨ls', g1, g2⟩ := drive_wait hs _ j (run cfg ls st) rfl (by rw [h2.fault]; exact hf)
      (by rw [h2.pc]; exact hp) (hi.wait c j s hp hs).1 (by
        intro i hi1 hi2
        exact h3 i hi1 (lt_of_lt_of_le hi2 (parts_le _ _)) s (hS c s hs))
    exact ⟨ls ++ ls', h1.append g1, by rw [run_append]; exact g2⟩
  have fromPar : ∀ s, cfg.slot c = some s → (∃ ls, Own c ls ∧ (run cfg ls st).pc c = .waiting 1 ∧
      (run cfg ls st).fault = false ∧ (run cfg ls st).avail = st.avail) →
      ∃ ls, Own c ls ∧ (run cfg ls st).pc c = .idle := by
    rintro s hs ⟨ls, h1, h2, h3, h4⟩
    obtain ⟨ls', g1, g2⟩ := fromWait (run cfg ls st) s hs (run_inv hT hx ls hi) (run_scanOk ls h.scanOk) h3
      (by rw [h4]; exact ha) ⟨1, h2⟩
    exact ⟨ls ++ ls', h1.append g1, by rw [run_append]; exact g2⟩
  cases hp : st.pc c with
  | idle => exact ⟨[], by simp [Own], hp⟩
  | seq rest => exact drive_seq rest st hf hp
  | setting i =>
    obtain ⟨s, hs, _⟩ := hi.par c (by rw [hp]; trivial)
    exact fromPar s hs (drive_setting hs _ i st rfl hf hp)
  | main c' rest =>
    obtain ⟨s, hs, _⟩ := hi.par c (by rw [hp]; trivial)
    exact fromPar s hs (drive_main hs c' rest st hf hp)
  | waiting j =>
    obtain ⟨s, hs, _⟩ := hi.par c (by rw [hp]; trivial)
    exact fromWait st s hs hi h.scanOk hf ha ⟨j, hp⟩

def exCfg : Cfg := ⟨2, 2, fun c => if c = 0 then some 0 else none⟩

theorem exCfg_exclusive : Exclusive exCfg := by
  intro c c' s h h'
  simp only [exCfg] at h h'
  by_cases h0 : c = 0 <;> by_cases h1 : c' = 0 <;> simp_all

/-- A loop of four iterations on two threads, run to completion: worker 1 ran 10 and 30, the caller 0 and 20. -/
example : (run exCfg [.avail 1, .push 0 ⟨0, 40, 10⟩, .tick 0, .work 1, .work 1, .tick 0, .work 1, .tick 0, .work 1,
    .tick 0, .work 1, .tick 0, .tick 0, .tick 0] .init).done = [(⟨0, 40, 10⟩, [10, 0, 30, 20])] := by decide

/-- A waiting `push` whose worker sleeps because the pool was put to sleep. -/
structure Stuck (st : State) : Prop where
  avail : st.avail = 0
  pc : st.pc 0 = .waiting 1
  task : st.task 0 = ⟨0, 2, 1⟩
  flag : st.flag 0 1 = true
  w : ∀ i, st.w i = .check
  others : ∀ c, c ≠ 0 → ¬ Par (st.pc c)

theorem Stuck.step (h : Stuck st) (l : Label) (hl : ∀ n, l ≠ .avail n) : Stuck (step exCfg st l) := by
  have hseq : ∀ c t, c ≠ 0 → Stuck (startSeq st c t) := by
    intro c t hc
    refine ⟨h.avail, ?_, ?_, h.flag, h.w, ?_⟩
    · simpa [startSeq, hc.symm] using h.pc
    · simpa [startSeq, hc.symm] using h.task
    · intro c' hc'
      by_cases he : c' = c
      · subst he; simp [startSeq, Par]
      · simpa [startSeq, he] using h.others c' hc'
  unfold Verif.Pool.step
  by_cases hf : st.fault = true
  · rw [if_pos hf]; exact h
  rw [if_neg hf]
  cases l with
  | avail n => exact absurd rfl (hl n)
  | work i =>
    simp only
    split_ifs
    · simp only [work, h.w i, h.avail]
      exact h
    · exact h
  | push c t =>
    simp only
    unfold push
    by_cases hi : st.pc c = .idle ∧ 0 < t.step
    · have hc : c ≠ 0 := by
        rintro rfl
        rw [h.pc] at hi
        simp at hi
      have hsl : exCfg.slot c = none := by simp [exCfg, hc]
      rw [if_pos hi, hsl]
      by_cases h1 : t.tiles ≤ 1
      · rw [if_pos h1]; exact hseq c t hc
      · rw [if_neg h1]; exact hseq c t hc
    · rw [if_neg hi]; exact h
  | tick c =>
    simp only
    by_cases hc : c = 0
    · subst hc
      have hk : 1 < parts exCfg.T (st.task 0).iters := by rw [h.task]; decide
      simp only [tick, h.pc]
      change Stuck (tickAt exCfg st 0 0)
      simp only [tickAt, h.pc]
      rw [if_pos hk, if_pos h.flag]
      refine ⟨h.avail, by simp, h.task, h.flag, h.w, fun c' hc' => ?_⟩
      simpa [hc'] using h.others c' hc'
    · have ho := h.others c hc
      unfold tick
      cases hp : st.pc c with
      | idle => exact h
      | setting i => rw [hp] at ho; exact (ho trivial).elim
      | main c' r => rw [hp] at ho; exact (ho trivial).elim
      | waiting i => rw [hp] at ho; exact (ho trivial).elim
      | seq rest =>
        cases rest with
        | nil =>
          refine ⟨h.avail, by simpa [Ne.symm hc] using h.pc, h.task, h.flag, h.w, fun c' hc' => ?_⟩
          by_cases he : c' = c
          · subst he; simp [Par]
          · simpa [he] using h.others c' hc'
        | cons x rest =>
          refine ⟨h.avail, by simpa [Ne.symm hc] using h.pc, h.task, h.flag, h.w, fun c' hc' => ?_⟩
          by_cases he : c' = c
          · subst he; simp [Par]
          · simpa [he] using h.others c' hc'

/-- If the pool is put to sleep (`idle()`) while a loop is running, that loop never returns until somebody
wakes the pool up, whatever else happens. -/
theorem idle_during_push_hangs : ∃ st, Reachable exCfg st ∧
    ∀ ls, (∀ n, Label.avail n ∉ ls) → (run exCfg ls st).pc 0 ≠ .idle := by
  refine ⟨run exCfg [.avail 1, .push 0 ⟨0, 2, 1⟩, .tick 0, .tick 0, .tick 0, .tick 0, .avail 0] .init, ⟨_, rfl⟩, ?_⟩
  have h0 : Stuck (run exCfg [.avail 1, .push 0 ⟨0, 2, 1⟩, .tick 0, .tick 0, .tick 0, .tick 0, .avail 0] .init) := by
    refine ⟨rfl, by decide, by decide, by decide, fun i => rfl, fun c hc => ?_⟩
    have : (run exCfg [.avail 1, .push 0 ⟨0, 2, 1⟩, .tick 0, .tick 0, .tick 0, .tick 0, .avail 0] .init).pc
        = Function.update (Function.update (Function.update (Function.update (Function.update (fun _ => CPc.idle) 0
          (.setting 1)) 0 (.setting 2)) 0 (.main 0 [0])) 0 (.main 0 [])) 0 (.waiting 1) := rfl
    rw [this]
    simp [hc, Par]
  generalize run exCfg _ _ = st at h0
  intro ls
  induction ls generalizing st with
  | nil => intro _; rw [run, List.foldl_nil, h0.pc]; simp
  | cons l ls ih =>
    intro hl
    refine ih _ (h0.step l ?_) fun n hn => hl n (List.mem_cons_of_mem _ hn)
    rintro n rfl
    exact hl n List.mem_cons_self

end Verif.Pool
