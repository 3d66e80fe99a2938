import Verif.Service.Model
/- C30, C31: the generation service. -/
namespace Verif.Service

variable {Resp : Type} {cfg : Cfg Resp} {st : State Resp}

theorem run_cons (l : Label) (ls : List Label) (st : State Resp) :
    run cfg (l :: ls) st = run cfg ls (step cfg st l) := rfl

theorem run_append (l l' : List Label) (st : State Resp) :
    run cfg (l ++ l') st = run cfg l' (run cfg l st) := by simp [run]

/-- Induction over executions. -/
theorem Reachable.induct {P : State Resp → Prop} (h0 : P .init) (hs : ∀ st l, P st → P (step cfg st l))
    (h : Reachable cfg st) : P st := by
  obtain ⟨ls, rfl⟩ := h
  suffices H : ∀ (ls : List Label) st, P st → P (run cfg ls st) from H ls _ h0
  intro ls
  induction ls with
  | nil => intro st h; exact h
  | cons l ls ih => intro st h; exact ih _ (hs st l h)

/-- Case analysis of a step: what each transition does. -/
theorem step_cases {P : State Resp → Prop} (h : P st)
    (hsend : ∀ r t w, notifyW cfg.workers st.w t = some w →
      P { st with rq := st.rq ++ [r], w := w, sent := st.sent ++ [r] })
    (htop : ∀ i, i < cfg.workers → st.w i = .top →
      P { st with w := Function.update st.w i (if st.running then .lock else .exited) })
    (hexit : ∀ i, i < cfg.workers → st.w i = .lock ∨ st.w i = .woken → st.rq = [] → st.rstop = true →
      P { st with w := Function.update st.w i .exited })
    (hsleep : ∀ i, i < cfg.workers → st.w i = .lock ∨ st.w i = .woken → st.rq = [] → st.rstop = false →
      P { st with w := Function.update st.w i .asleep })
    (hcrash : ∀ i r rest, i < cfg.workers → st.w i = .lock ∨ st.w i = .woken → st.rq = r :: rest →
      cfg.gen r = none → P { st with rq := rest, served := st.served ++ [(i, r)], crashed := true })
    (hpop : ∀ i r rest out, i < cfg.workers → st.w i = .lock ∨ st.w i = .woken → st.rq = r :: rest →
      cfg.gen r = some out → P { st with
        rq := rest
        served := st.served ++ [(i, r)]
        w := Function.update st.w i (.gen r out) })
    (hgen : ∀ i r x rest t cl, i < cfg.workers → st.w i = .gen r (x :: rest) →
      notifyC cfg.clients st.cl t = some cl → P { st with
        w := Function.update st.w i (.gen r rest)
        pq := Function.update st.pq r.id (st.pq r.id ++ [x])
        pushed := Function.update st.pushed r.id (st.pushed r.id ++ [x])
        cl := cl })
    (hend : ∀ i r, i < cfg.workers → st.w i = .gen r [] → P { st with w := Function.update st.w i .top })
    (hspurW : ∀ i, (st.w i).isAsleep = true → P { st with w := Function.update st.w i .woken })
    (hcl : ∀ c p, (∀ id, p = .asleep id → st.pq id = [] ∧ c < cfg.clients) →
      P { st with cl := Function.update st.cl c p })
    (hgot : ∀ c id x rest, st.cl c = .lock id ∨ st.cl c = .woken id → st.pstop = false → st.pq id = x :: rest →
      P { st with
        cl := Function.update st.cl c .idle
        pq := Function.update st.pq id rest
        got := Function.update st.got id (st.got id ++ [x]) })
    (hbound : ∀ c, c < cfg.clients ∨ st.cl c = .idle)
    (hstop0 : st.stopPc = 0 → P { st with
      rstop := true, w := fun i => if (st.w i).isAsleep then .woken else st.w i, stopPc := 1 })
    (hstop1 : st.stopPc = 1 → P { st with running := false, stopPc := 2 })
    (hstop2 : st.stopPc = 2 → (∀ i < cfg.workers, st.w i = .exited) → P { st with stopPc := 3 })
    (hstop3 : st.stopPc = 3 → P { st with pstop := true, cl := fun c => (st.cl c).wake, stopPc := 4 })
    (l : Label) : P (step cfg st l) := by
  have hpopReq : ∀ i, i < cfg.workers → st.w i = .lock ∨ st.w i = .woken → P (popReq cfg st i) := by
    intro i hi hw
    cases hq : st.rq with
    | nil =>
      cases hr : st.rstop with
      | true =>
        have e : popReq cfg st i = { st with w := Function.update st.w i .exited } := by simp [popReq, hq, hr]
        rw [e]; exact hexit i hi hw hq hr
      | false =>
        have e : popReq cfg st i = { st with w := Function.update st.w i .asleep } := by simp [popReq, hq, hr]
        rw [e]; exact hsleep i hi hw hq hr
    | cons r rest =>
      cases hg : cfg.gen r with
      | none =>
        have e : popReq cfg st i = { st with rq := rest, served := st.served ++ [(i, r)], crashed := true } := by
          simp [popReq, hq, hg]
        rw [e]; exact hcrash i r rest hi hw hq hg
      | some out =>
        have e : popReq cfg st i = { st with
            rq := rest
            served := st.served ++ [(i, r)]
            w := Function.update st.w i (.gen r out) } := by simp [popReq, hq, hg]
        rw [e]; exact hpop i r rest out hi hw hq hg
  have hpopResp : ∀ c id, st.cl c = .lock id ∨ st.cl c = .woken id → P (popResp st c id) := by
    intro c id hc
    cases hp : st.pstop with
    | true =>
      have e : popResp st c id = { st with cl := Function.update st.cl c .idle } := by simp [popResp, hp]
      rw [e]; exact hcl c .idle (by simp)
    | false =>
      cases hq : st.pq id with
      | nil =>
        have e : popResp st c id = { st with cl := Function.update st.cl c (.asleep id) } := by
          simp [popResp, hp, hq]
        rw [e]
        refine hcl c (.asleep id) ?_
        rintro id' ⟨⟩
        rcases hbound c with h1 | h1
        · exact ⟨hq, h1⟩
        · rcases hc with hc | hc <;> rw [hc] at h1 <;> cases h1
      | cons x rest =>
        have e : popResp st c id = { st with
            cl := Function.update st.cl c .idle
            pq := Function.update st.pq id rest
            got := Function.update st.got id (st.got id ++ [x]) } := by simp [popResp, hp, hq]
        rw [e]
        exact hgot c id x rest hc hp hq
  unfold step
  by_cases hcr : st.crashed = true
  · rw [if_pos hcr]; exact h
  rw [if_neg hcr]
  cases l with
  | send r t =>
    simp only [send]
    cases hn : notifyW cfg.workers st.w t with
    | none => exact h
    | some w => exact hsend r t w hn
  | work i t =>
    simp only
    by_cases hi : i < cfg.workers
    · rw [if_pos hi]
      unfold work
      cases hw : st.w i with
      | top => exact htop i hi hw
      | lock => exact hpopReq i hi (.inl hw)
      | woken => exact hpopReq i hi (.inr hw)
      | asleep => exact h
      | exited => exact h
      | gen r rest =>
        cases rest with
        | nil => exact hend i r hi hw
        | cons x rest =>
          simp only
          cases hn : notifyC cfg.clients st.cl t with
          | none => exact h
          | some cl => exact hgen i r x rest t cl hi hw hn
    · rw [if_neg hi]; exact h
  | spurW i =>
    simp only
    by_cases ha : (st.w i).isAsleep = true
    · rw [if_pos ha]; exact hspurW i ha
    · rw [if_neg ha]; exact h
  | call c id =>
    simp only
    by_cases hc : c < cfg.clients ∧ st.cl c = .idle
    · rw [if_pos hc]; exact hcl c (.lock id) (by simp)
    · rw [if_neg hc]; exact h
  | client c =>
    simp only [client]
    cases hc : st.cl c with
    | idle => exact h
    | asleep id => exact h
    | lock id => exact hpopResp c id (.inl hc)
    | woken id => exact hpopResp c id (.inr hc)
  | spurC c =>
    refine hcl c _ ?_
    intro id hid
    cases hc : st.cl c with
    | asleep _ => rw [hc] at hid; simp [CPc.wake] at hid
    | idle => rw [hc] at hid; simp [CPc.wake] at hid
    | lock _ => rw [hc] at hid; simp [CPc.wake] at hid
    | woken _ => rw [hc] at hid; simp [CPc.wake] at hid
  | stop =>
    simp only [stop]
    split
    · exact hstop0 ‹_›
    · exact hstop1 ‹_›
    · split_ifs with ha
      · refine hstop2 ‹_› fun i hi => ?_
        rw [List.all_eq_true] at ha
        have := ha i (List.mem_range.2 hi)
        revert this
        cases st.w i <;> simp
      · exact h
    · exact hstop3 ‹_›
    · exact h

/-- Only the configured client threads call the service. -/
def Bound (cfg : Cfg Resp) (st : State Resp) : Prop := ∀ c, c < cfg.clients ∨ st.cl c = .idle

theorem notifyC_cases {n t : Nat} {cl cl' : Nat → CPc} (h : notifyC n cl t = some cl') :
    (t < n ∧ (cl t).isAsleep = true ∧ cl' = Function.update cl t (cl t).wake) ∨
    ((∀ c < n, (cl c).isAsleep = false) ∧ cl' = cl) := by
  unfold notifyC at h
  by_cases h1 : t < n ∧ (cl t).isAsleep = true
  · rw [if_pos h1] at h
    exact .inl ⟨h1.1, h1.2, (Option.some.inj h).symm⟩
  · rw [if_neg h1] at h
    by_cases h2 : (List.range n).any (fun c => (cl c).isAsleep) = true
    · rw [if_pos h2] at h; cases h
    · rw [if_neg h2] at h
      refine .inr ⟨fun c hc => ?_, (Option.some.inj h).symm⟩
      by_contra h3
      exact h2 (List.any_eq_true.2 ⟨c, List.mem_range.2 hc, by simpa using h3⟩)

theorem notifyW_cases {n t : Nat} {w w' : Nat → WPc Resp} (h : notifyW n w t = some w') :
    (t < n ∧ (w t).isAsleep = true ∧ w' = Function.update w t .woken) ∨
    ((∀ c < n, (w c).isAsleep = false) ∧ w' = w) := by
  unfold notifyW at h
  by_cases h1 : t < n ∧ (w t).isAsleep = true
  · rw [if_pos h1] at h
    exact .inl ⟨h1.1, h1.2, (Option.some.inj h).symm⟩
  · rw [if_neg h1] at h
    by_cases h2 : (List.range n).any (fun c => (w c).isAsleep) = true
    · rw [if_pos h2] at h; cases h
    · rw [if_neg h2] at h
      refine .inr ⟨fun c hc => ?_, (Option.some.inj h).symm⟩
      by_contra h3
      exact h2 (List.any_eq_true.2 ⟨c, List.mem_range.2 hc, by simpa using h3⟩)

theorem bound_update {cl : Nat → CPc} {n c : Nat} {p : CPc} (h : ∀ c, c < n ∨ cl c = .idle)
    (hp : p = .idle ∨ c < n) : ∀ c', c' < n ∨ Function.update cl c p c' = .idle := by
  intro c'
  by_cases he : c' = c
  · subst he
    rcases hp with hp | hp
    · right; simp [hp]
    · exact .inl hp
  · rcases h c' with h | h
    · exact .inl h
    · right; simp [he, h]

theorem step_bound (h : Bound cfg st) (l : Label) : Bound cfg (step cfg st l) := by
  have hc : ∀ c (p : CPc), st.cl c ≠ .idle ∨ p = .idle → ∀ c', c' < cfg.clients ∨ Function.update st.cl c p c' = .idle := by
    intro c p hp
    refine bound_update h ?_
    rcases hp with hp | hp
    · rcases h c with h1 | h1
      · exact .inr h1
      · exact absurd h1 hp
    · exact .inl hp
  have hpopResp : ∀ c id, st.cl c ≠ .idle → Bound cfg (popResp st c id) := by
    intro c id hne
    unfold popResp
    split_ifs
    · exact hc c _ (.inl hne)
    · cases st.pq id with
      | nil => exact hc c _ (.inl hne)
      | cons x r => exact hc c _ (.inl hne)
  unfold step
  by_cases hcr : st.crashed = true
  · rw [if_pos hcr]; exact h
  rw [if_neg hcr]
  cases l with
  | send r t =>
    simp only [send]
    cases notifyW cfg.workers st.w t <;> exact h
  | work i t =>
    simp only
    split_ifs
    · unfold work
      cases hw : st.w i with
      | top => exact h
      | lock => simp only [popReq]; repeat' split
                all_goals exact h
      | woken => simp only [popReq]; repeat' split
                 all_goals exact h
      | asleep => exact h
      | exited => exact h
      | gen r rest =>
        cases rest with
        | nil => exact h
        | cons x rest =>
          simp only
          cases hn : notifyC cfg.clients st.cl t with
          | none => exact h
          | some cl =>
            rcases notifyC_cases hn with ⟨h1, h2, rfl⟩ | ⟨_, rfl⟩
            · exact bound_update h (.inr h1)
            · exact h
    · exact h
  | spurW i => simp only; split_ifs <;> exact h
  | call c id =>
    simp only
    split_ifs with h1
    · exact bound_update h (.inr h1.1)
    · exact h
  | client c =>
    simp only [client]
    cases hp : st.cl c with
    | idle => exact h
    | asleep id => exact h
    | lock id => exact hpopResp c id (by rw [hp]; simp)
    | woken id => exact hpopResp c id (by rw [hp]; simp)
  | spurC c =>
    refine bound_update h ?_
    cases hp : st.cl c with
    | idle => exact .inl rfl
    | _ =>
      rcases h c with h1 | h1
      · exact .inr h1
      · rw [hp] at h1; cases h1
  | stop =>
    simp only [stop]
    repeat' split
    all_goals first
      | exact h
      | (intro c
         rcases h c with h1 | h1
         · exact .inl h1
         · right; simp [h1, CPc.wake])

theorem Reachable.bound (h : Reachable cfg st) : Bound cfg st :=
  h.induct (fun _ => .inr rfl) fun _ l h => step_bound h l

/-- Invariant rule for reachable states: `Bound` may be used. -/
theorem Reachable.induct' {P : State Resp → Prop} (h0 : P .init)
    (hs : ∀ st l, Bound cfg st → P st → P (step cfg st l)) (h : Reachable cfg st) : P st :=
  (h.induct (P := fun st => Bound cfg st ∧ P st) ⟨fun _ => .inr rfl, h0⟩
    fun st l h => ⟨step_bound h.1 l, hs st l h.1 h.2⟩).2

/-! ### C30: requests -/

/-- In every execution, the requests taken by workers followed by those waiting are the accepted requests in
order of acceptance: first in first out, each taken once, none lost and none invented. -/
theorem requests_fifo (h : Reachable cfg st) : st.served.map Prod.snd ++ st.rq = st.sent := by
  refine h.induct' (P := fun st => st.served.map Prod.snd ++ st.rq = st.sent) rfl ?_
  intro st l hb h
  refine step_cases (P := fun st => st.served.map Prod.snd ++ st.rq = st.sent) h ?_ ?_ ?_ ?_ ?_ ?_ ?_ ?_ ?_ ?_ ?_
    hb ?_ ?_ ?_ ?_ l
  · intro r t w _; simp [← h]
  · intro i _ _; exact h
  · intro i _ _ _ _; exact h
  · intro i _ _ _ _; exact h
  · intro i r rest _ _ hq _; simp [← h, hq]
  · intro i r rest out _ _ hq _; simp [← h, hq]
  · intro i r x rest t cl _ _ _; exact h
  · intro i r _ _; exact h
  · intro i _; exact h
  · intro c p _; exact h
  · intro c id x rest _ _ _; exact h
  · intro _; exact h
  · intro _; exact h
  · intro _ _; exact h
  · intro _; exact h

/-- Number of workers in a given situation. -/
def cnt {α : Type} (n : Nat) (p : α → Bool) (w : Nat → α) : Nat := (List.range n).countP fun i => p (w i)

theorem cnt_update {α : Type} (p : α → Bool) (w : Nat → α) (i : Nat) (v : α) : ∀ n, i < n →
    cnt n p (Function.update w i v) + (if p (w i) then 1 else 0) = cnt n p w + (if p v then 1 else 0) := by
  intro n
  have hge : ∀ n, n ≤ i → cnt n p (Function.update w i v) = cnt n p w := by
    intro n hn
    unfold cnt
    refine List.countP_congr fun j hj => ?_
    have : j ≠ i := by have := List.mem_range.1 hj; omega
    simp [this]
  induction n with
  | zero => intro h; omega
  | succ n ih =>
    intro h
    unfold cnt at *
    rw [List.range_succ, List.countP_append, List.countP_append]
    simp only [List.countP_cons, List.countP_nil, Nat.zero_add]
    by_cases he : i = n
    · subst he
      rw [hge i (le_refl _)]
      simp only [Function.update_self]
      omega
    · have := ih (by omega)
      rw [Function.update_of_ne (fun h => he h.symm)]
      omega

def WPc.isWoken : WPc Resp → Bool
  | .woken => true
  | _ => false

/-- Enough workers are on their way to the queue. -/
def Awake (cfg : Cfg Resp) (st : State Resp) : Prop :=
  (∃ i < cfg.workers, (st.w i).isAsleep = true) → st.rq.length ≤ cnt cfg.workers WPc.isWoken st.w

theorem awake_of_update {w : Nat → WPc Resp} {n i k : Nat} {v : WPc Resp}
    (h : (∃ j < n, (w j).isAsleep = true) → k ≤ cnt n WPc.isWoken w) (hi : i < n)
    (hv : v.isAsleep = true → k = 0) (hw : (w i).isWoken = true → v.isWoken = false → k = 0) :
    (∃ j < n, (Function.update w i v j).isAsleep = true) → k ≤ cnt n WPc.isWoken (Function.update w i v) := by
  rintro ⟨j, hj, hja⟩
  have hc := cnt_update WPc.isWoken w i v n hi
  by_cases hji : j = i
  · subst hji
    rw [Function.update_self] at hja
    rw [hv hja]; omega
  · rw [Function.update_of_ne hji] at hja
    have h1 := h ⟨j, hj, hja⟩
    by_cases a : (w i).isWoken = true
    · by_cases b : v.isWoken = true
      · simp only [a, b, if_true] at hc; omega
      · rw [hw a (by simpa using b)]; omega
    · simp only [a] at hc
      simp at hc
      split_ifs at hc <;> omega

theorem step_awake (hb : Bound cfg st) (h : Awake cfg st) (l : Label) : Awake cfg (step cfg st l) := by
  refine step_cases (P := Awake cfg) h ?_ ?_ ?_ ?_ ?_ ?_ ?_ ?_ ?_ ?_ ?_ hb ?_ ?_ ?_ ?_ l
  · intro r t w hn
    rcases notifyW_cases hn with ⟨ht, ha, rfl⟩ | ⟨hno, rfl⟩
    · rintro ⟨j, hj, hja⟩
      have hc := cnt_update WPc.isWoken st.w t .woken cfg.workers ht
      have h1 := h ⟨t, ht, ha⟩
      have h2 : (st.w t).isWoken = false := by
        cases hw : st.w t <;> simp_all [WPc.isAsleep, WPc.isWoken]
      have e1 : (WPc.woken : WPc Resp).isWoken = true := rfl
      rw [h2, e1] at hc
      simp only [List.length_append, List.length_singleton]
      simp at hc
      omega
    · rintro ⟨j, hj, hja⟩
      exact absurd hja (by simp [hno j hj])
  · intro i hi hw
    refine awake_of_update h hi ?_ ?_
    · split_ifs <;> simp [WPc.isAsleep]
    · rw [hw]; simp [WPc.isWoken]
  · intro i hi _ hq _
    exact awake_of_update h hi (by simp [hq]) (by simp [hq])
  · intro i hi _ hq _
    exact awake_of_update h hi (by simp [hq]) (by simp [hq])
  · intro i r rest _ _ hq _ hex
    have := h hex
    rw [hq] at this
    simp only [List.length_cons] at this ⊢
    omega
  · intro i r rest out hi hw hq _
    rintro ⟨j, hj, hja⟩
    have hji : j ≠ i := by rintro rfl; simp [WPc.isAsleep] at hja
    have hja' : (st.w j).isAsleep = true := by simpa [hji] using hja
    have h1 := h ⟨j, hj, hja'⟩
    have hc := cnt_update WPc.isWoken st.w i (.gen r out) cfg.workers hi
    have e1 : (WPc.gen r out : WPc Resp).isWoken = false := rfl
    rw [e1] at hc
    rw [hq] at h1
    simp only [List.length_cons] at h1
    simp at hc
    change rest.length ≤ cnt cfg.workers WPc.isWoken (Function.update st.w i (.gen r out))
    split_ifs at hc <;> omega
  · intro i r x rest t cl hi hw _
    exact awake_of_update h hi (by simp [WPc.isAsleep]) (by rw [hw]; simp [WPc.isWoken])
  · intro i r hi hw
    exact awake_of_update h hi (by simp [WPc.isAsleep]) (by rw [hw]; simp [WPc.isWoken])
  · intro i ha
    by_cases hi : i < cfg.workers
    · exact awake_of_update h hi (by simp [WPc.isAsleep]) (by simp [WPc.isWoken])
    · have hc : ∀ n, n ≤ i → cnt n WPc.isWoken (Function.update st.w i .woken) = cnt n WPc.isWoken st.w := by
        intro n hn
        refine List.countP_congr fun j hj => ?_
        have : j ≠ i := by have := List.mem_range.1 hj; omega
        simp [this]
      rintro ⟨j, hj, hja⟩
      rw [hc _ (by omega)]
      exact h ⟨j, hj, by
        have : j ≠ i := by omega
        simpa [this] using hja⟩
  · intro c p _; exact h
  · intro c id x rest _ _ _; exact h
  · intro _
    rintro ⟨j, hj, hja⟩
    simp only at hja
    cases hw : st.w j <;> simp [hw, WPc.isAsleep] at hja
  · intro _; exact h
  · intro _ _; exact h
  · intro _; exact h

/-- No lost wake-up for workers: whenever requests wait and some worker sleeps, as many workers as there are
requests have been woken. -/
theorem request_wakeup (h : Reachable cfg st) {i : Nat} (hi : i < cfg.workers) (ha : st.w i = .asleep) :
    st.rq.length ≤ (List.range cfg.workers).countP (fun i => (st.w i).isWoken) := by
  refine h.induct' (P := Awake cfg) ?_ (fun st l hb h => step_awake hb h l) ⟨i, hi, by rw [ha]; rfl⟩
  rintro ⟨j, _, hj⟩
  simp [State.init, WPc.isAsleep] at hj

/-- Workers leave only once `stop` was called. -/
theorem exited_stopped (h : Reachable cfg st) : (st.stopPc = 0 → st.running = true ∧ st.rstop = false ∧
    st.pstop = false ∧ ∀ i, st.w i ≠ .exited) := by
  refine h.induct' (P := fun st => st.stopPc = 0 → st.running = true ∧ st.rstop = false ∧
    st.pstop = false ∧ ∀ i, st.w i ≠ .exited) (fun _ => ⟨rfl, rfl, rfl, by simp [State.init]⟩) ?_
  intro st l hb h
  have upd : ∀ i (v : WPc Resp), v ≠ .exited → (∀ j, st.w j ≠ .exited) →
      ∀ j, Function.update st.w i v j ≠ .exited := by
    intro i v hv hw j
    by_cases he : j = i
    · subst he; simpa using hv
    · simpa [he] using hw j
  refine step_cases (P := fun st => st.stopPc = 0 → st.running = true ∧ st.rstop = false ∧
    st.pstop = false ∧ ∀ i, st.w i ≠ .exited) h ?_ ?_ ?_ ?_ ?_ ?_ ?_ ?_ ?_ ?_ ?_
    hb ?_ ?_ ?_ ?_ l
  · intro r t w hn hs
    obtain ⟨h1, h2, h3, h4⟩ := h hs
    refine ⟨h1, h2, h3, ?_⟩
    rcases notifyW_cases hn with ⟨_, _, rfl⟩ | ⟨_, rfl⟩
    · exact upd _ _ (by simp) h4
    · exact h4
  · intro i _ _ hs
    obtain ⟨h1, h2, h3, h4⟩ := h hs
    exact ⟨h1, h2, h3, upd _ _ (by simp [h1]) h4⟩
  · intro i _ _ _ hr hs
    have := (h hs).2.1
    rw [hr] at this
    cases this
  · intro i _ _ _ _ hs
    obtain ⟨h1, h2, h3, h4⟩ := h hs
    exact ⟨h1, h2, h3, upd _ _ (by simp) h4⟩
  · intro i r rest _ _ _ _; exact h
  · intro i r rest out _ _ _ _ hs
    obtain ⟨h1, h2, h3, h4⟩ := h hs
    exact ⟨h1, h2, h3, upd _ _ (by simp) h4⟩
  · intro i r x rest t cl _ _ _ hs
    obtain ⟨h1, h2, h3, h4⟩ := h hs
    exact ⟨h1, h2, h3, upd _ _ (by simp) h4⟩
  · intro i r _ _ hs
    obtain ⟨h1, h2, h3, h4⟩ := h hs
    exact ⟨h1, h2, h3, upd _ _ (by simp) h4⟩
  · intro i _ hs
    obtain ⟨h1, h2, h3, h4⟩ := h hs
    exact ⟨h1, h2, h3, upd _ _ (by simp) h4⟩
  · intro c p _; exact h
  · intro c id x rest _ _ _; exact h
  · intro _ hs; simp at hs
  · intro _ hs; simp at hs
  · intro _ _ hs; simp at hs
  · intro _ hs; simp at hs

/-- `notify_one` can always be scheduled. -/
theorem exists_notifyC (n : Nat) (cl : Nat → CPc) : ∃ t cl', notifyC n cl t = some cl' := by
  by_cases h : ∃ t < n, (cl t).isAsleep = true
  · obtain ⟨t, ht, ha⟩ := h
    exact ⟨t, _, by rw [notifyC, if_pos ⟨ht, ha⟩]⟩
  · refine ⟨0, cl, ?_⟩
    rw [notifyC, if_neg, if_neg]
    · rw [List.any_eq_true]
      rintro ⟨t, ht, ha⟩
      exact h ⟨t, List.mem_range.1 ht, ha⟩
    · rintro ⟨ht, ha⟩
      exact h ⟨0, ht, ha⟩

/-- A worker that generates finishes its request. -/
theorem drive_gen {i : Nat} (hi : i < cfg.workers) (r : Req) (rest : List Resp) : ∀ st : State Resp,
    st.crashed = false → st.w i = .gen r rest → ∃ ls, (∀ l ∈ ls, ∃ i t, l = .work i t) ∧
      (run cfg ls st).w i = .top ∧ (run cfg ls st).rq = st.rq ∧ (run cfg ls st).crashed = false ∧
      (run cfg ls st).running = st.running ∧ (run cfg ls st).served = st.served := by
  induction rest with
  | nil =>
    intro st hc hw
    refine ⟨[.work i 0], by simp, ?_⟩
    simp [run, step, work, hc, hw, hi]
  | cons x rest ih =>
    intro st hc hw
    obtain ⟨t, cl', hn⟩ := exists_notifyC cfg.clients st.cl
    have hstep : step cfg st (.work i t) = { st with
        w := Function.update st.w i (.gen r rest)
        pq := Function.update st.pq r.id (st.pq r.id ++ [x])
        pushed := Function.update st.pushed r.id (st.pushed r.id ++ [x])
        cl := cl' } := by
      simp [step, work, hc, hw, hi, hn]
    obtain ⟨ls, h1, h2, h3, h4, h5, h6⟩ := ih (step cfg st (.work i t)) (by rw [hstep]; exact hc) (by rw [hstep]; simp)
    refine ⟨.work i t :: ls, ?_, ?_⟩
    · intro l hl
      rcases List.mem_cons.1 hl with rfl | hl
      · exact ⟨i, t, rfl⟩
      · exact h1 l hl
    · rw [run_cons]
      refine ⟨h2, h3.trans ?_, h4, h5.trans ?_, h6.trans ?_⟩ <;> rw [hstep]

/-- Before `stop`, an accepted request can always be taken next, by steps of the workers alone: no execution
leads to a state in which a request waits for ever. -/
theorem request_served (h : Reachable cfg st) (hn : 0 < cfg.workers) (hs : st.stopPc = 0) (hc : st.crashed = false)
    (hg : ∀ r, (cfg.gen r).isSome) {r : Req} {rest : List Req} (hq : st.rq = r :: rest) :
    ∃ ls i, (∀ l ∈ ls, ∃ i t, l = .work i t) ∧ (run cfg ls st).served = st.served ++ [(i, r)] := by
  obtain ⟨hrun, hrs, _, hne⟩ := exited_stopped h hs
  have fromLock : ∀ (st : State Resp) i, i < cfg.workers → st.crashed = false → st.rq = r :: rest →
      st.w i = .lock ∨ st.w i = .woken → ∃ ls i, (∀ l ∈ ls, ∃ i t, l = .work i t) ∧
      (run cfg ls st).served = st.served ++ [(i, r)] := by
    intro st i hi hc hq hw
    refine ⟨[.work i 0], i, by simp, ?_⟩
    obtain ⟨out, ho⟩ := Option.isSome_iff_exists.1 (hg r)
    rcases hw with hw | hw <;> simp [run, step, work, hc, hw, hi, popReq, hq, ho]
  have fromTop : ∀ (st : State Resp) i, i < cfg.workers → st.crashed = false → st.running = true → st.rq = r :: rest →
      st.w i = .top → ∃ ls i, (∀ l ∈ ls, ∃ i t, l = .work i t) ∧
      (run cfg ls st).served = st.served ++ [(i, r)] := by
    intro st i hi hc hr hq hw
    have hstep : step cfg st (.work i 0) = { st with w := Function.update st.w i .lock } := by
      simp [step, work, hc, hw, hi, hr]
    obtain ⟨ls, j, h1, h2⟩ := fromLock (step cfg st (.work i 0)) i hi (by rw [hstep]; exact hc)
      (by rw [hstep]; exact hq) (by rw [hstep]; simp)
    refine ⟨.work i 0 :: ls, j, ?_, ?_⟩
    · intro l hl
      rcases List.mem_cons.1 hl with rfl | hl
      · exact ⟨i, 0, rfl⟩
      · exact h1 l hl
    · rw [run_cons, h2, hstep]
  have key : ∃ i < cfg.workers, st.w i ≠ .asleep := by
    by_contra hcon
    push Not at hcon
    have h0 := hcon 0 hn
    have := request_wakeup h hn h0
    rw [hq] at this
    have hz : (List.range cfg.workers).countP (fun i => (st.w i).isWoken) = 0 := by
      rw [List.countP_eq_zero]
      intro j hj
      rw [hcon j (List.mem_range.1 hj)]
      simp [WPc.isWoken]
    rw [hz] at this
    simp at this
  obtain ⟨i, hi, hna⟩ := key
  cases hw : st.w i with
  | asleep => exact absurd hw hna
  | exited => exact absurd hw (hne i)
  | top => exact fromTop st i hi hc hrun hq hw
  | lock => exact fromLock st i hi hc hq (.inl hw)
  | woken => exact fromLock st i hi hc hq (.inr hw)
  | gen r' out =>
    obtain ⟨ls, h1, h2, h3, h4, h5, h6⟩ := drive_gen hi r' out st hc hw
    obtain ⟨ls', j, g1, g2⟩ := fromTop (run cfg ls st) i hi h4 (h5.trans hrun) (h3.trans hq) h2
    refine ⟨ls ++ ls', j, ?_, ?_⟩
    · intro l hl
      rcases List.mem_append.1 hl with hl | hl
      · exact h1 l hl
      · exact g1 l hl
    · rw [run_append, g2, h6]

/-- Two tokens for every request. -/
def exCfg : Cfg Nat := ⟨1, 2, fun r => if r.payload = 9 then none else some [r.payload, 0]⟩

/-- The hypotheses of `request_wakeup` and `request_served` are met: a sleeping worker has been notified of two
queued requests while another one sleeps, before `stop`. -/
example : let cfg : Cfg Nat := ⟨3, 2, fun r => some [r.payload]⟩
    let st := run cfg [.work 0 0, .work 0 0, .work 1 0, .work 1 0, .work 2 0, .work 2 0, .send ⟨1, 5⟩ 1,
      .send ⟨2, 6⟩ 2] .init
    st.w 0 = .asleep ∧ st.w 1 = .woken ∧ st.w 2 = .woken ∧ st.rq = [⟨1, 5⟩, ⟨2, 6⟩] ∧ st.stopPc = 0 ∧
      st.crashed = false := by decide +kernel

def dropReqRun : List Label := [.send ⟨1, 5⟩ 0, .send ⟨2, 6⟩ 0, .work 0 0, .work 0 0, .stop, .stop, .work 0 0,
  .work 0 0, .work 0 0, .work 0 0, .stop, .stop]

/-- Requests accepted (`sendRequest` returned 0) before `stop` was called are dropped by it: after `stop` has
returned, no execution ever takes them. -/
theorem stop_drops_requests_violated : ∃ st, Reachable exCfg st ∧ st.stopPc = 4 ∧ st.rq ≠ [] ∧
    st.sent = [⟨1, 5⟩, ⟨2, 6⟩] ∧ ∀ ls, (run exCfg ls st).served = [(0, ⟨1, 5⟩)] := by
  have key : ∀ (ls : List Label) (st : State Nat), (∀ i, st.w i = .exited ∨ 1 ≤ i) → st.running = false →
      st.served = [(0, ⟨1, 5⟩)] → 4 ≤ st.stopPc →
      (run exCfg ls st).served = [(0, ⟨1, 5⟩)] := by
    intro ls
    induction ls with
    | nil => intro st _ _ h _; exact h
    | cons l ls ih =>
      intro st hw hr hs h4
      have hno : ∀ i, i < 1 → st.w i = .exited := by
        intro i hi
        rcases hw i with h | h
        · exact h
        · omega
      have : (∀ i, (step exCfg st l).w i = .exited ∨ 1 ≤ i) ∧ (step exCfg st l).running = false ∧
          (step exCfg st l).served = [(0, ⟨1, 5⟩)] ∧ 4 ≤ (step exCfg st l).stopPc := by
        unfold step
        by_cases hc : st.crashed = true
        · rw [if_pos hc]; exact ⟨hw, hr, hs, h4⟩
        rw [if_neg hc]
        cases l with
        | send r t =>
          simp only [send]
          cases hn : notifyW exCfg.workers st.w t with
          | none => exact ⟨hw, hr, hs, h4⟩
          | some w =>
            rcases notifyW_cases hn with ⟨ht, ha, _⟩ | ⟨_, rfl⟩
            · rw [hno t ht] at ha; simp [WPc.isAsleep] at ha
            · exact ⟨hw, hr, hs, h4⟩
        | work i t =>
          simp only
          split_ifs with hi
          · simp only [work, hno i hi]; exact ⟨hw, hr, hs, h4⟩
          · exact ⟨hw, hr, hs, h4⟩
        | spurW i =>
          simp only
          split_ifs with ha
          · refine ⟨fun j => ?_, hr, hs, h4⟩
            by_cases he : j = i
            · subst he
              rcases hw j with h | h
              · rw [h] at ha; simp [WPc.isAsleep] at ha
              · exact .inr h
            · simpa [he] using hw j
          · exact ⟨hw, hr, hs, h4⟩
        | call c id => simp only; split_ifs <;> exact ⟨hw, hr, hs, h4⟩
        | client c =>
          simp only [client, popResp]
          repeat' split
          all_goals exact ⟨hw, hr, hs, h4⟩
        | spurC c => exact ⟨hw, hr, hs, h4⟩
        | stop =>
          simp only [stop]
          split
          · omega
          · omega
          · omega
          · omega
          · exact ⟨hw, hr, hs, h4⟩
      rw [run_cons]
      exact ih _ this.1 this.2.1 this.2.2.1 this.2.2.2
  have e1 : (run exCfg dropReqRun .init).w 0 = .exited := by decide +kernel
  have e2 : (run exCfg dropReqRun .init).running = false := by decide +kernel
  have e3 : (run exCfg dropReqRun .init).served = [(0, ⟨1, 5⟩)] := by decide +kernel
  have e4 : (run exCfg dropReqRun .init).stopPc = 4 := by decide +kernel
  have e5 : (run exCfg dropReqRun .init).rq ≠ [] := by decide +kernel
  have e6 : (run exCfg dropReqRun .init).sent = [⟨1, 5⟩, ⟨2, 6⟩] := by decide +kernel
  have hre : Reachable exCfg (run exCfg dropReqRun .init) := ⟨dropReqRun, Eq.refl _⟩
  generalize run exCfg dropReqRun .init = st at *
  refine ⟨st, hre, e4, e5, e6, fun ls' => key ls' st (fun i => ?_) e2 e3 (by omega)⟩
  by_cases hi : i = 0
  · exact .inl (hi ▸ e1)
  · right; omega

/-- A request naming a model that is not registered crashes the process (null session). -/
theorem unknown_model_violated : ∃ ls, (run exCfg ls .init).crashed = true :=
  ⟨[.send ⟨1, 9⟩ 0, .work 0 0, .work 0 0], rfl⟩

/-! ### C31: responses -/

/-- In every execution and for every id: the responses returned to clients followed by those waiting are the
responses pushed, in order, each once. -/
theorem responses_ordered (h : Reachable cfg st) (id : Nat) : st.got id ++ st.pq id = st.pushed id := by
  refine h.induct' (P := fun st => ∀ id, st.got id ++ st.pq id = st.pushed id) (fun _ => rfl) ?_ id
  intro st l hb h
  refine step_cases (P := fun st => ∀ id, st.got id ++ st.pq id = st.pushed id) h ?_ ?_ ?_ ?_ ?_ ?_ ?_ ?_ ?_ ?_ ?_
    hb ?_ ?_ ?_ ?_ l
  case refine_7 =>
    intro i r x rest t cl _ _ _ id
    by_cases he : id = r.id
    · subst he; simp [← h r.id]
    · simpa [he] using h id
  case refine_11 =>
    intro c id x rest _ _ hq id'
    by_cases he : id' = id
    · subst he; simp [← h id', hq]
    · simpa [he] using h id'
  all_goals intros; exact h _

/-- What has been pushed, relative to what the sessions generate. -/
structure Stream (cfg : Cfg Resp) (st : State Resp) : Prop where
  gen : ∀ i r rest, st.w i = .gen r rest → (i, r) ∈ st.served ∧ ∃ pre, cfg.gen r = some (pre ++ rest) ∧
    st.pushed r.id = pre
  one : ∀ i j r r' rest rest', st.w i = .gen r rest → st.w j = .gen r' rest' → r.id = r'.id → i = j
  fresh : ∀ id, (∀ p ∈ st.served, p.2.id ≠ id) → st.pushed id = []
  fin : ∀ i r, (i, r) ∈ st.served → (∀ rest, st.w i ≠ .gen r rest) → st.crashed = false →
    cfg.gen r = some (st.pushed r.id)

theorem Stream.update_other (h : Stream cfg st) {i : Nat} {v : WPc Resp} (hv : ∀ r rest, v ≠ .gen r rest)
    (hw : ∀ r rest, st.w i ≠ .gen r rest) {st' : State Resp} (h1 : st'.w = Function.update st.w i v)
    (h2 : st'.served = st.served) (h3 : st'.pushed = st.pushed) (h4 : st'.crashed = st.crashed) :
    Stream cfg st' where
  gen j r rest hj := by
    rw [h1] at hj
    by_cases he : j = i
    · subst he; rw [Function.update_self] at hj; exact absurd hj (hv _ _)
    · rw [Function.update_of_ne he] at hj
      rw [h2, h3]; exact h.gen j r rest hj
  one j k r r' rest rest' hj hk hid := by
    rw [h1] at hj hk
    by_cases he : j = i
    · subst he; rw [Function.update_self] at hj; exact absurd hj (hv _ _)
    · by_cases he' : k = i
      · subst he'; rw [Function.update_self] at hk; exact absurd hk (hv _ _)
      · rw [Function.update_of_ne he] at hj
        rw [Function.update_of_ne he'] at hk
        exact h.one j k r r' rest rest' hj hk hid
  fresh := by rw [h2, h3]; exact h.fresh
  fin j r hm hn hc := by
    rw [h2] at hm
    rw [h3]
    refine h.fin j r hm (fun rest => ?_) (by rw [← h4]; exact hc)
    by_cases he : j = i
    · subst he; exact hw _ _
    · have := hn rest
      rw [h1, Function.update_of_ne he] at this
      exact this

theorem Stream.congr (h : Stream cfg st) {st' : State Resp} (h1 : st'.w = st.w)
    (h2 : st'.served = st.served) (h3 : st'.pushed = st.pushed) (h4 : st'.crashed = st.crashed) :
    Stream cfg st' := by
  constructor
  · rw [h1, h2, h3]; exact h.gen
  · rw [h1]; exact h.one
  · rw [h2, h3]; exact h.fresh
  · rw [h1, h2, h3, h4]; exact h.fin

theorem not_gen_of_asleep {w : WPc Resp} (h : w.isAsleep = true) : ∀ r rest, w ≠ .gen r rest := by
  rintro r rest rfl
  simp [WPc.isAsleep] at h

theorem not_gen_of_lock {w : WPc Resp} (h : w = .lock ∨ w = .woken) : ∀ r rest, w ≠ .gen r rest := by
  rintro r rest rfl
  rcases h with h | h <;> cases h

theorem stream_inv (h : Reachable cfg st) (hu : (st.sent.map Req.id).Nodup) : Stream cfg st := by
  refine (h.induct' (P := fun st => st.served.map Prod.snd ++ st.rq = st.sent ∧
    ((st.sent.map Req.id).Nodup → Stream cfg st)) ⟨rfl, fun _ => ?_⟩ ?_).2 hu
  · constructor <;> simp [State.init]
  intro st l hb ⟨hf, h⟩
  refine step_cases (P := fun st => st.served.map Prod.snd ++ st.rq = st.sent ∧
    ((st.sent.map Req.id).Nodup → Stream cfg st)) ⟨hf, h⟩ ?_ ?_ ?_ ?_ ?_ ?_ ?_ ?_ ?_ ?_ ?_ hb ?_ ?_ ?_ ?_ l
  · intro r t w hn
    refine ⟨by simp [← hf], fun hu => ?_⟩
    have hs := h (by
      simp only [List.map_append] at hu
      exact (List.nodup_append.1 hu).1)
    rcases notifyW_cases hn with ⟨_, ha, rfl⟩ | ⟨_, rfl⟩
    · exact hs.update_other (by simp) (not_gen_of_asleep ha) rfl rfl rfl rfl
    · exact hs.congr rfl rfl rfl rfl
  · intro i _ hw
    refine ⟨hf, fun hu => (h hu).update_other ?_ ?_ rfl rfl rfl rfl⟩
    · intro r rest; split_ifs <;> simp
    · rw [hw]; simp
  · intro i _ hw _ _
    exact ⟨hf, fun hu => (h hu).update_other (by simp) (not_gen_of_lock hw) rfl rfl rfl rfl⟩
  · intro i _ hw _ _
    exact ⟨hf, fun hu => (h hu).update_other (by simp) (not_gen_of_lock hw) rfl rfl rfl rfl⟩
  · intro i r rest _ hw hq _
    refine ⟨by simp [← hf, hq], fun hu => ?_⟩
    have hs := h hu
    refine ⟨?_, hs.one, ?_, ?_⟩
    · intro j r' rest' hj
      obtain ⟨h1, h2⟩ := hs.gen j r' rest' hj
      exact ⟨List.mem_append_left _ h1, h2⟩
    · intro id hid
      exact hs.fresh id fun p hp => hid p (List.mem_append_left _ hp)
    · intro j r' _ _ hc
      simp at hc
  · intro i r rest out hi hw hq hg
    refine ⟨by simp [← hf, hq], fun hu => ?_⟩
    have hs := h hu
    have hnew : ∀ p ∈ st.served, p.2.id ≠ r.id := by
      intro p hp he
      have : st.sent.map Req.id = (st.served.map Prod.snd).map Req.id ++ (r.id :: rest.map Req.id) := by
        rw [← hf, hq]; simp
      change (st.sent.map Req.id).Nodup at hu
      rw [this] at hu
      have hd := (List.nodup_append.1 hu).2.2
      exact hd p.2.id (List.mem_map.2 ⟨p.2, List.mem_map.2 ⟨p, hp, rfl⟩, rfl⟩) r.id List.mem_cons_self he
    have hnew' : ∀ j r' rest', st.w j = .gen r' rest' → r'.id ≠ r.id := fun j r' rest' hj =>
      hnew _ (hs.gen j r' rest' hj).1
    refine ⟨?_, ?_, ?_, ?_⟩
    · intro j r' rest' hj
      by_cases he : j = i
      · subst he
        simp only [Function.update_self, WPc.gen.injEq] at hj
        obtain ⟨rfl, rfl⟩ := hj
        exact ⟨by simp, [], by simpa using hg, hs.fresh _ hnew⟩
      · obtain ⟨h1, h2⟩ := hs.gen j r' rest' (by simpa [he] using hj)
        exact ⟨List.mem_append_left _ h1, h2⟩
    · intro j k r1 r2 rest1 rest2 hj hk hid
      by_cases he : j = i
      · by_cases he' : k = i
        · rw [he, he']
        · subst he
          simp only [Function.update_self, WPc.gen.injEq] at hj
          obtain ⟨rfl, rfl⟩ := hj
          exact absurd hid.symm (hnew' k r2 rest2 (by simpa [he'] using hk))
      · by_cases he' : k = i
        · subst he'
          simp only [Function.update_self, WPc.gen.injEq] at hk
          obtain ⟨rfl, rfl⟩ := hk
          exact absurd hid (hnew' j r1 rest1 (by simpa [he] using hj))
        · exact hs.one j k r1 r2 rest1 rest2 (by simpa [he] using hj) (by simpa [he'] using hk) hid
    · intro id hid
      exact hs.fresh id fun p hp => hid p (List.mem_append_left _ hp)
    · intro j r' hm hn hc
      rcases List.mem_append.1 hm with hm | hm
      · refine hs.fin j r' hm (fun rest' => ?_) hc
        by_cases he : j = i
        · subst he; exact not_gen_of_lock hw _ _
        · simpa [he] using hn rest'
      · simp only [List.mem_singleton, Prod.mk.injEq] at hm
        obtain ⟨rfl, rfl⟩ := hm
        exact absurd (by simp) (hn out)
  · intro i r x rest t cl hi hw hn
    refine ⟨hf, fun hu => ?_⟩
    have hs := h hu
    obtain ⟨g1, pre, g2, g3⟩ := hs.gen i r (x :: rest) hw
    have hids : ∀ p ∈ st.served, p.2.id = r.id → p = (i, r) := by
      intro p hp he
      have : st.sent.map Req.id = (st.served.map fun p => p.2.id) ++ st.rq.map Req.id := by
        rw [← hf]; simp
      change (st.sent.map Req.id).Nodup at hu
      rw [this] at hu
      have hd := (List.nodup_append.1 hu).1
      exact List.inj_on_of_nodup_map hd hp g1 he
    refine ⟨?_, ?_, ?_, ?_⟩
    · intro j r' rest' hj
      by_cases he : j = i
      · subst he
        simp only [Function.update_self, WPc.gen.injEq] at hj
        obtain ⟨rfl, rfl⟩ := hj
        exact ⟨g1, pre ++ [x], by simpa using g2, by simp [g3]⟩
      · have hj' : st.w j = .gen r' rest' := by simpa [he] using hj
        obtain ⟨h1, p2, h2, h3⟩ := hs.gen j r' rest' hj'
        have hne : r'.id ≠ r.id := fun e => he (hs.one j i r' r rest' (x :: rest) hj' hw e)
        exact ⟨h1, p2, h2, by simpa [hne] using h3⟩
    · intro j k r1 r2 rest1 rest2 hj hk hid
      have fix : ∀ j r1 rest1, Function.update st.w i (.gen r rest) j = .gen r1 rest1 →
          ∃ rest1', st.w j = .gen r1 rest1' := by
        intro j r1 rest1 hj
        by_cases he : j = i
        · subst he
          simp only [Function.update_self, WPc.gen.injEq] at hj
          obtain ⟨rfl, rfl⟩ := hj
          exact ⟨_, hw⟩
        · exact ⟨rest1, by simpa [he] using hj⟩
      obtain ⟨_, hj'⟩ := fix j r1 rest1 hj
      obtain ⟨_, hk'⟩ := fix k r2 rest2 hk
      exact hs.one j k r1 r2 _ _ hj' hk' hid
    · intro id hid
      have hne : id ≠ r.id := fun e => hid _ g1 e.symm
      simpa [hne] using hs.fresh id hid
    · intro j r' hm hn' hc
      by_cases hp : (j, r') = (i, r)
      · simp only [Prod.mk.injEq] at hp
        obtain ⟨rfl, rfl⟩ := hp
        exact absurd (by simp) (hn' rest)
      · have hne : r'.id ≠ r.id := fun e => hp (hids _ hm e)
        have := hs.fin j r' hm (fun rest' => by
          by_cases he : j = i
          · subst he
            rw [hw]
            intro e
            simp only [WPc.gen.injEq] at e
            exact hp (by rw [e.1])
          · simpa [he] using hn' rest') hc
        simpa [hne] using this
  · intro i r hi hw
    refine ⟨hf, fun hu => ?_⟩
    have hs := h hu
    obtain ⟨g1, pre, g2, g3⟩ := hs.gen i r [] hw
    refine ⟨?_, ?_, hs.fresh, ?_⟩
    · intro j r' rest' hj
      by_cases he : j = i
      · subst he; simp at hj
      · exact hs.gen j r' rest' (by simpa [he] using hj)
    · intro j k r1 r2 rest1 rest2 hj hk hid
      by_cases he : j = i
      · subst he; simp at hj
      · by_cases he' : k = i
        · subst he'; simp at hk
        · exact hs.one j k r1 r2 rest1 rest2 (by simpa [he] using hj) (by simpa [he'] using hk) hid
    · intro j r' hm hn' hc
      by_cases hp : j = i ∧ r' = r
      · obtain ⟨rfl, rfl⟩ := hp
        change cfg.gen r' = some (st.pushed r'.id)
        rw [g2, g3]; simp
      · refine hs.fin j r' hm (fun rest' => ?_) hc
        by_cases he : j = i
        · subst he
          rw [hw]
          intro e
          simp only [WPc.gen.injEq] at e
          exact hp ⟨rfl, e.1.symm⟩
        · simpa [he] using hn' rest'
  · intro i ha
    exact ⟨hf, fun hu => (h hu).update_other (by simp) (not_gen_of_asleep ha) rfl rfl rfl rfl⟩
  · intro c p _
    exact ⟨hf, fun hu => (h hu).congr rfl rfl rfl rfl⟩
  · intro c id x rest _ _ _
    exact ⟨hf, fun hu => (h hu).congr rfl rfl rfl rfl⟩
  · intro _
    refine ⟨hf, fun hu => ?_⟩
    have hs := h hu
    have fix : ∀ j r1 rest1, (if (st.w j).isAsleep then WPc.woken else st.w j) = .gen r1 rest1 ↔
        st.w j = .gen r1 rest1 := by
      intro j r1 rest1
      cases hw : st.w j <;> simp [WPc.isAsleep]
    constructor
    · intro j r' rest' hj
      exact hs.gen j r' rest' ((fix _ _ _).1 hj)
    · intro j k r1 r2 rest1 rest2 hj hk hid
      exact hs.one j k r1 r2 rest1 rest2 ((fix _ _ _).1 hj) ((fix _ _ _).1 hk) hid
    · exact hs.fresh
    · intro j r' hm hn' hc
      exact hs.fin j r' hm (fun rest' hh => hn' rest' ((fix _ _ _).2 hh)) hc
  · intro _; exact ⟨hf, fun hu => (h hu).congr rfl rfl rfl rfl⟩
  · intro _ _; exact ⟨hf, fun hu => (h hu).congr rfl rfl rfl rfl⟩
  · intro _; exact ⟨hf, fun hu => (h hu).congr rfl rfl rfl rfl⟩

/-- For requests with distinct ids: the responses a client has received for an id are a prefix of what the
session generated for that request (in order, nothing repeated, nothing from another request). -/
theorem responses_prefix (h : Reachable cfg st) (hu : (st.sent.map Req.id).Nodup) (hc : st.crashed = false)
    {r : Req} (hr : r ∈ st.sent) (hg : cfg.gen r ≠ none) :
    ∃ out, cfg.gen r = some out ∧ st.got r.id <+: out := by
  have hs := stream_inv h hu
  have ho := responses_ordered h r.id
  obtain ⟨out, hout⟩ := Option.ne_none_iff_exists'.1 hg
  refine ⟨out, hout, ?_⟩
  have hgp : st.got r.id <+: st.pushed r.id := ⟨_, ho⟩
  refine hgp.trans ?_
  by_cases hm : ∃ i, (i, r) ∈ st.served
  · obtain ⟨i, hi⟩ := hm
    by_cases hw : ∃ rest, st.w i = .gen r rest
    · obtain ⟨rest, hw⟩ := hw
      obtain ⟨_, pre, h1, h2⟩ := hs.gen i r rest hw
      rw [hout] at h1
      rw [h2, Option.some.inj h1]
      exact List.prefix_append _ _
    · push Not at hw
      have := hs.fin i r hi hw hc
      rw [hout] at this
      rw [Option.some.inj this]
  · have : st.pushed r.id = [] := by
      refine hs.fresh r.id fun p hp he => ?_
      refine hm ⟨p.1, ?_⟩
      have hf := requests_fifo h
      have hp' : p.2 ∈ st.sent := by
        rw [← hf]
        exact List.mem_append_left _ (List.mem_map.2 ⟨p, hp, rfl⟩)
      have : p.2 = r := List.inj_on_of_nodup_map hu hp' hr he
      rw [← this]
      exact hp
    rw [this]
    exact List.nil_prefix

/-- Once the worker is done with a request, everything generated for it has been returned or is waiting. -/
theorem responses_complete (h : Reachable cfg st) (hu : (st.sent.map Req.id).Nodup) (hc : st.crashed = false)
    {i : Nat} {r : Req} (hr : (i, r) ∈ st.served) (hw : ∀ rest, st.w i ≠ .gen r rest) :
    cfg.gen r = some (st.got r.id ++ st.pq r.id) := by
  rw [responses_ordered h]
  exact (stream_inv h hu).fin i r hr hw hc

/-- The hypotheses of `responses_prefix` and `responses_complete` are met by two requests in flight on two workers,
one of them finished, with the client half-way through its stream. -/
example : let cfg : Cfg Nat := ⟨2, 2, fun r => some [r.payload, 0]⟩
    let st := run cfg [.send ⟨1, 5⟩ 0, .send ⟨2, 6⟩ 0, .work 0 0, .work 1 0, .work 0 0, .work 1 0, .work 0 0, .work 1 0,
      .work 0 0, .work 0 0, .call 0 1, .client 0] .init
    st.served = [(0, ⟨1, 5⟩), (1, ⟨2, 6⟩)] ∧ st.w 0 = .top ∧ st.w 1 = .gen ⟨2, 6⟩ [0] ∧ st.got 1 = [5] ∧ st.pq 1 = [0] ∧
      (st.sent.map Req.id).Nodup ∧ st.crashed = false := by decide +kernel

/-- With a single client thread, no wake-up is lost: the client sleeps only while there is no response for it.
Missing: several clients (`lost_wakeup_violated`). -/
theorem single_client_wakeup_partial (h1 : cfg.clients = 1) (h : Reachable cfg st) {c id : Nat}
    (hc : st.cl c = .asleep id) : st.pq id = [] := by
  refine h.induct' (P := fun st => ∀ c id, st.cl c = .asleep id → st.pq id = []) (by simp [State.init]) ?_ c id hc
  intro st l hb h
  refine step_cases (P := fun st => ∀ c id, st.cl c = .asleep id → st.pq id = []) h ?_ ?_ ?_ ?_ ?_ ?_ ?_ ?_ ?_ ?_ ?_
    hb ?_ ?_ ?_ ?_ l
  case refine_7 =>
    intro i r x rest t cl _ _ hn c id hc
    exfalso
    rcases notifyC_cases hn with ⟨ht, ha, rfl⟩ | ⟨hno, rfl⟩
    · have ht0 : t = 0 := by omega
      subst ht0
      by_cases he : c = 0
      · subst he
        simp only [Function.update_self] at hc
        revert hc
        cases st.cl 0 <;> simp [CPc.wake]
      · have hc' : st.cl c = .asleep id := by simpa [he] using hc
        rcases hb c with hbc | hbc
        · omega
        · rw [hbc] at hc'; cases hc'
    · have hc' : st.cl c = .asleep id := hc
      rcases hb c with hbc | hbc
      · have := hno c hbc
        rw [hc'] at this
        simp [CPc.isAsleep] at this
      · rw [hbc] at hc'; cases hc'
  case refine_10 =>
    intro c p hp c' id hc'
    by_cases he : c' = c
    · subst he
      simp only [Function.update_self] at hc'
      exact (hp id hc').1
    · exact h c' id (by simpa [he] using hc')
  case refine_11 =>
    intro c id x rest hcl _ hq c' id' hc'
    by_cases he : c' = c
    · subst he; simp at hc'
    · have := h c' id' (by simpa [he] using hc')
      have hne : id' ≠ id := by rintro rfl; rw [hq] at this; cases this
      simpa [hne] using this
  case refine_15 =>
    intro _ c id hc
    simp only at hc
    revert hc
    cases st.cl c <;> simp [CPc.wake]
  all_goals intros; exact h _ _ ‹_›

def lostRun : List Label := [.call 0 1, .client 0, .call 1 2, .client 1, .send ⟨2, 7⟩ 0, .work 0 0, .work 0 0,
  .work 0 0, .client 0, .work 0 0, .client 0, .work 0 0, .work 0 0, .work 0 0]

/-- Two clients wait for different ids; the response for the second id wakes the first client, which goes
back to sleep. The second client then sleeps although its response is there, and no step of the workers and
clients ever wakes it. -/
theorem lost_wakeup_violated : ∃ st, Reachable exCfg st ∧ st.cl 1 = .asleep 2 ∧ st.pq 2 = [7, 0] ∧
    ∀ ls, (∀ l ∈ ls, (∃ i t, l = .work i t) ∨ ∃ c, l = .client c) → (run exCfg ls st).cl 1 = .asleep 2 := by
  have key : ∀ (ls : List Label) (st : State Nat), (∀ l ∈ ls, (∃ i t, l = .work i t) ∨ ∃ c, l = .client c) →
      st.w 0 = .asleep → st.cl 1 = .asleep 2 → (∀ c, c ≠ 0 → c ≠ 1 → st.cl c = .idle) →
      (∃ id, st.cl 0 = .asleep id) → (run exCfg ls st).cl 1 = .asleep 2 := by
    intro ls
    induction ls with
    | nil => intro st _ _ h _ _; exact h
    | cons l ls ih =>
      intro st hl hw h1 ho h0
      have hs : step exCfg st l = st := by
        unfold step
        by_cases hc : st.crashed = true
        · rw [if_pos hc]
        rw [if_neg hc]
        rcases hl l List.mem_cons_self with ⟨i, t, rfl⟩ | ⟨c, rfl⟩
        · simp only
          split_ifs with hi
          · have : i = 0 := by simp only [exCfg] at hi; omega
            subst this
            simp only [work, hw]
          · rfl
        · simp only [client]
          by_cases hc0 : c = 0
          · subst hc0
            obtain ⟨id, h0⟩ := h0
            rw [h0]
          · by_cases hc1 : c = 1
            · subst hc1; rw [h1]
            · rw [ho c hc0 hc1]
      rw [run_cons, hs]
      exact ih st (fun l hl' => hl l (List.mem_cons_of_mem _ hl')) hw h1 ho h0
  have e1 : (run exCfg lostRun .init).w 0 = .asleep := by decide +kernel
  have e2 : (run exCfg lostRun .init).cl 1 = .asleep 2 := by decide +kernel
  have e3 : (run exCfg lostRun .init).cl 0 = .asleep 1 := by decide +kernel
  have e4 : (run exCfg lostRun .init).pq 2 = [7, 0] := by decide +kernel
  have hre : Reachable exCfg (run exCfg lostRun .init) := ⟨lostRun, Eq.refl _⟩
  have hb : ∀ c, c ≠ 0 → c ≠ 1 → (run exCfg lostRun .init).cl c = .idle := by
    intro c hc0 hc1
    rcases hre.bound c with h | h
    · simp only [exCfg] at h; omega
    · exact h
  generalize run exCfg lostRun .init = st at *
  exact ⟨st, hre, e2, e4, fun ls' hl' => key ls' st hl' e1 e2 hb ⟨1, e3⟩⟩

def dropRespRun : List Label := [.send ⟨1, 5⟩ 0, .work 0 0, .work 0 0, .work 0 0, .work 0 0, .work 0 0, .stop,
  .stop, .work 0 0, .stop, .stop]

/-- `stop` discards responses that were already generated: once it has returned, `getResponse` never
delivers them. -/
theorem stop_drops_responses_violated : ∃ st, Reachable exCfg st ∧ st.stopPc = 4 ∧ st.pq 1 = [5, 0] ∧
    ∀ ls, (run exCfg ls st).got 1 = [] := by
  have key : ∀ (ls : List Label) (st : State Nat), st.pstop = true → st.got 1 = [] →
      (run exCfg ls st).got 1 = [] := by
    intro ls
    induction ls with
    | nil => intro st _ h; exact h
    | cons l ls ih =>
      intro st hp hg
      have hb : (step exCfg st l).pstop = true ∧ (step exCfg st l).got 1 = [] := by
        unfold step
        by_cases hc : st.crashed = true
        · rw [if_pos hc]; exact ⟨hp, hg⟩
        rw [if_neg hc]
        cases l with
        | send r t => simp only [send]; split <;> exact ⟨hp, hg⟩
        | work i t =>
          simp only [work, popReq]
          repeat' split
          all_goals exact ⟨hp, hg⟩
        | spurW i => simp only; split_ifs <;> exact ⟨hp, hg⟩
        | call c id => simp only; split_ifs <;> exact ⟨hp, hg⟩
        | client c =>
          simp only [client, popResp, hp, if_true]
          split <;> first | exact ⟨hp, hg⟩ | exact ⟨rfl, hg⟩
        | spurC c => exact ⟨hp, hg⟩
        | stop =>
          simp only [stop]
          repeat' split
          all_goals first | exact ⟨hp, hg⟩ | exact ⟨rfl, hg⟩
      exact ih _ hb.1 hb.2
  have e1 : (run exCfg dropRespRun .init).stopPc = 4 := by decide +kernel
  have e2 : (run exCfg dropRespRun .init).pq 1 = [5, 0] := by decide +kernel
  have e3 : (run exCfg dropRespRun .init).pstop = true := by decide +kernel
  have e4 : (run exCfg dropRespRun .init).got 1 = [] := by decide +kernel
  have hre : Reachable exCfg (run exCfg dropRespRun .init) := ⟨dropRespRun, Eq.refl _⟩
  generalize run exCfg dropRespRun .init = st at *
  exact ⟨st, hre, e1, e2, fun ls' => key ls' st e3 e4⟩

/-- A complete exchange: request 4 is generated by worker 0 and both responses are read by client 1. -/
example : (run exCfg [.send ⟨4, 5⟩ 0, .call 1 4, .client 1, .work 0 0, .work 0 0, .work 0 1, .client 1, .call 1 4,
    .work 0 0, .client 1, .work 0 0] .init).got 4 = [5, 0] := by decide

end Verif.Service
