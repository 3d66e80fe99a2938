import Verif.Serve.Model

/-!
# The table of request states
-/

namespace Verif.Serve

/-! ### Specification -/

/-- The value of an option for prompt number `i` of a batch: lists are per prompt, anything else is for all prompts. -/
def At (v : Py) (i : Nat) (w : Py) : Prop :=
  match v with
  | .list l => l[i]? = some w
  | v => w = v

/-- `s` is the request for prompt number `i` of the batch `r`: the prompt with its own options. -/
structure Nth (r : Req) (i : Nat) (s : Req) : Prop where
  rid : At r.rid i s.rid
  text : At r.text i s.text
  inputIds : At r.inputIds i s.inputIds
  sampling : At r.sampling i s.sampling
  logprob : At r.logprob i s.logprob
  logprobStart : At r.logprobStart i s.logprobStart
  topLogprobs : At r.topLogprobs i s.topLogprobs
  stream : s.stream = r.stream
  image : At r.image i s.image
  video : At r.video i s.video
  audio : At r.audio i s.audio
  lora : At r.lora i s.lora
  session : At r.session i s.session
  extra : s.extra = r.extra

/-- The request can be registered under the key `k`. -/
def Req.Mentions (pyStr : Py → String) (r : Req) (k : String) : Prop :=
  keyOf pyStr r.rid = k ∨ ∃ l, r.rid = .list l ∧ ∃ x ∈ l, keyOf pyStr x = k

/-- The event is about the request with id `k`, apart from results for it. -/
def Ev.Touches (pyStr : Py → String) (k : String) : Ev → Prop
  | .add r => r.Mentions pyStr k
  | .recv _ => False
  | .remove rid => rid = k
  | .abort rid => rid = k
  | .stale rid => rid = k

open Classical in
/-- The results for the id `k`, in the order of arrival. -/
noncomputable def resultsFor (k : String) : List Ev → List Res
  | [] => []
  | .recv r :: evs => if r.rid = .str k then r :: resultsFor k evs else resultsFor k evs
  | _ :: evs => resultsFor k evs

/-! ### Lemmas -/

theorem pick_at {v w : Py} {i : Nat} (h : At v i w) : pick v i = .ok w := by
  cases v <;> simp only [At] at h <;> simp [pick, h]

theorem at_of_pick {v w : Py} {i : Nat} (h : pick v i = .ok w) : At v i w := by
  unfold At; unfold pick at h
  split
  · rename_i l
    simp only at h
    split at h
    · rename_i x hx; cases h; exact hx
    · cases h
  · rename_i hn
    split at h
    · rename_i l; exact absurd rfl (hn l)
    · cases h; rfl

/-- `__getitem__` is the specification. -/
theorem item_nth {r s : Req} {n i : Nat} (hn : n ≠ 1) (h : Nth r i s) : r.item n i = .ok s := by
  unfold Req.item
  rw [if_neg hn]
  simp only [pick_at h.rid, pick_at h.text, pick_at h.inputIds, pick_at h.sampling, pick_at h.logprob, pick_at h.logprobStart,
    pick_at h.topLogprobs, pick_at h.image, pick_at h.video, pick_at h.audio, pick_at h.lora, pick_at h.session]
  show Except.ok _ = Except.ok s
  obtain ⟨rid, text, ids, sp, lp, ls, tl, st, im, vi, au, lo, se, ex⟩ := s
  have h1 := h.stream; have h2 := h.extra
  simp only at h1 h2
  rw [h1, h2]

/-- What keeps the table meaningful: it names existing states, no state twice. -/
structure Front.Ok (f : Front) : Prop where
  lt : ∀ k i, f.table k = some i → i < f.nstates
  inj : ∀ k k' i, f.table k = some i → f.table k' = some i → k = k'

theorem ok_init : Front.init.Ok := ⟨fun _ _ h => (by cases h), fun _ _ _ h => (by cases h)⟩

theorem ok_register {f : Front} (h : f.Ok) (k : String) (m : Msg) : (f.register k m).Ok := by
  constructor
  · intro k' i hi
    simp only [Front.register, setKey] at hi ⊢
    split at hi
    · cases hi; omega
    · have := h.lt k' i hi; omega
  · intro k1 k2 i h1 h2
    simp only [Front.register, setKey] at h1 h2
    split at h1 <;> split at h2
    · simp_all
    · cases h1; have := h.lt _ _ h2; omega
    · cases h2; have := h.lt _ _ h1; omega
    · exact h.inj _ _ _ h1 h2

theorem ok_addItems (ps : Py → String) (r : Req) (n : Nat) : ∀ (is : List Nat) (f : Front), f.Ok → (addItems ps r n is f).1.Ok
  | [], f, h => h
  | i :: is, f, h => by
    unfold addItems
    split
    · exact h
    · exact ok_addItems ps r n is _ (ok_register h _ _)

theorem ok_add {ps : Py → String} {f : Front} (h : f.Ok) (r : Req) : (f.add ps r).1.Ok := by
  unfold Front.add
  split
  · exact h
  · split
    · exact h
    · exact ok_register h _ _
  · exact ok_addItems ps r _ _ f h

theorem ok_table {f g : Front} (h : f.Ok) (hn : g.nstates = f.nstates) (ht : ∀ k i, g.table k = some i → f.table k = some i) :
    g.Ok := ⟨fun k i hi => hn ▸ h.lt k i (ht k i hi), fun k k' i h1 h2 => h.inj k k' i (ht k i h1) (ht k' i h2)⟩

theorem recv_table (f : Front) (r : Res) : (f.recv r).table = f.table ∧ (f.recv r).nstates = f.nstates ∧
    (f.recv r).queue = f.queue := by
  unfold Front.recv; split
  · split <;> exact ⟨rfl, rfl, rfl⟩
  · exact ⟨rfl, rfl, rfl⟩

theorem finish_table (f : Front) (k : String) (o : Out) : (f.finish k o).table = setKey f.table k none ∧
    (f.finish k o).nstates = f.nstates ∧ (f.finish k o).queue = f.queue := by
  unfold Front.finish; split
  · dsimp only; split <;> exact ⟨rfl, rfl, rfl⟩
  · rename_i h
    refine ⟨?_, rfl, rfl⟩
    funext k'; simp only [setKey]; split
    · next hk => rw [hk, h]
    · rfl

theorem setKey_none {t : String → Option Nat} {k k' : String} {i : Nat} (h : setKey t k none k' = some i) : t k' = some i := by
  simp only [setKey] at h; split at h
  · cases h
  · exact h

theorem ok_step {ps : Py → String} {f : Front} (h : f.Ok) (e : Ev) : (f.step ps e).Ok := by
  cases e with
  | add r => exact ok_add h r
  | recv r => exact ok_table h (recv_table f r).2.1 (by intro k i hi; rwa [show (f.step ps (.recv r)) = f.recv r from rfl, (recv_table f r).1] at hi)
  | remove k => exact ok_table h rfl (fun k' i hi => setKey_none hi)
  | abort k => exact ok_table h (finish_table f k .aborted).2.1 (fun k' i hi => by
      rw [show (f.step ps (.abort k)) = f.finish k .aborted from rfl, (finish_table f k _).1] at hi; exact setKey_none hi)
  | stale k =>
    simp only [Front.step]
    split
    · split
      · exact h
      · exact ok_table h (finish_table f k .timeout).2.1 (fun k' i hi => by rw [(finish_table f k _).1] at hi; exact setKey_none hi)
    · exact h

theorem ok_run {ps : Py → String} : ∀ (evs : List Ev) {f : Front}, f.Ok → (f.run ps evs).Ok
  | [], _, h => h
  | e :: evs, _, h => ok_run (ps := ps) evs (ok_step h e)

/-! #### States that nothing refers to any more -/

/-- No id leads to state `j`. -/
def Front.Orphan (f : Front) (j : Nat) : Prop := j < f.nstates ∧ ∀ k, f.table k ≠ some j

theorem orphan_register {f : Front} {j : Nat} (h : f.Orphan j) (k : String) (m : Msg) :
    (f.register k m).Orphan j ∧ (f.register k m).states j = f.states j := by
  obtain ⟨h1, h2⟩ := h
  refine ⟨⟨by simp only [Front.register]; omega, ?_⟩, ?_⟩
  · intro k' hk
    simp only [Front.register, setKey] at hk
    split at hk
    · cases hk; omega
    · exact h2 k' hk
  · simp only [Front.register]; rw [if_neg (by omega)]

theorem orphan_addItems (ps : Py → String) (r : Req) (n : Nat) : ∀ (is : List Nat) {f : Front} {j : Nat}, f.Orphan j →
    (addItems ps r n is f).1.Orphan j ∧ (addItems ps r n is f).1.states j = f.states j
  | [], f, j, h => ⟨h, rfl⟩
  | i :: is, f, j, h => by
    unfold addItems
    split
    · exact ⟨h, rfl⟩
    · next sub _ =>
      have h1 := orphan_register h (keyOf ps sub.rid) sub.payload
      have h2 := orphan_addItems ps r n is h1.1
      exact ⟨h2.1, h2.2.trans h1.2⟩

theorem orphan_add (ps : Py → String) (r : Req) {f : Front} {j : Nat} (h : f.Orphan j) :
    (f.add ps r).1.Orphan j ∧ (f.add ps r).1.states j = f.states j := by
  unfold Front.add
  split
  · exact ⟨h, rfl⟩
  · split
    · exact ⟨h, rfl⟩
    · exact orphan_register h _ _
  · exact orphan_addItems ps r _ _ h

theorem finish_states {f : Front} {j : Nat} (h : ∀ k, f.table k ≠ some j) (k : String) (o : Out) :
    (f.finish k o).states j = f.states j := by
  unfold Front.finish; split
  · next i hi =>
    dsimp only
    split
    · rfl
    · simp only [Front.remove]
      rw [if_neg (by intro e; subst e; exact h k hi)]
  · rfl

theorem recv_states {f : Front} {j : Nat} (h : ∀ k, f.table k ≠ some j) (r : Res) : (f.recv r).states j = f.states j := by
  unfold Front.recv; split
  · next s _ =>
    split
    · next i hi => simp only; rw [if_neg (by intro e; subst e; exact h s hi)]
    · rfl
  · rfl

theorem orphan_step (ps : Py → String) (e : Ev) {f : Front} {j : Nat} (h : f.Orphan j) :
    (f.step ps e).Orphan j ∧ (f.step ps e).states j = f.states j := by
  cases e with
  | add r => exact orphan_add ps r h
  | recv r =>
    refine ⟨⟨?_, ?_⟩, recv_states h.2 r⟩
    · show j < (f.recv r).nstates; rw [(recv_table f r).2.1]; exact h.1
    · show ∀ k, (f.recv r).table k ≠ some j; rw [(recv_table f r).1]; exact h.2
  | remove k => exact ⟨⟨h.1, fun k' hk => h.2 k' (setKey_none hk)⟩, rfl⟩
  | abort k =>
    refine ⟨⟨?_, ?_⟩, finish_states h.2 k _⟩
    · show j < (f.finish k .aborted).nstates; rw [(finish_table f k _).2.1]; exact h.1
    · show ∀ k', (f.finish k .aborted).table k' ≠ some j; rw [(finish_table f k _).1]; exact fun k' hk => h.2 k' (setKey_none hk)
  | stale k =>
    simp only [Front.step]
    split
    · split
      · exact ⟨h, rfl⟩
      · refine ⟨⟨?_, ?_⟩, finish_states h.2 k _⟩
        · rw [(finish_table f k _).2.1]; exact h.1
        · rw [(finish_table f k _).1]; exact fun k' hk => h.2 k' (setKey_none hk)
    · exact ⟨h, rfl⟩

/-- A state that nothing refers to never changes again. -/
theorem orphan_run (ps : Py → String) : ∀ (evs : List Ev) {f : Front} {j : Nat}, f.Orphan j →
    (f.run ps evs).Orphan j ∧ (f.run ps evs).states j = f.states j
  | [], _, _, h => ⟨h, rfl⟩
  | e :: evs, f, j, h => by
    have h1 := orphan_step ps e h
    have h2 := orphan_run ps evs h1.1
    exact ⟨h2.1, h2.2.trans h1.2⟩

/-! #### States that are referred to -/

theorem addItems_table (ps : Py → String) (r : Req) (n : Nat) (k : String) (hk : ¬ r.Mentions ps k) :
    ∀ (is : List Nat) (f : Front), (∀ i ∈ is, i < n) → (addItems ps r n is f).1.table k = f.table k
  | [], f, _ => rfl
  | i :: is, f, hi => by
    unfold addItems
    split
    · rfl
    · next sub hsub =>
      have h2 := addItems_table ps r n k hk is (f.register (keyOf ps sub.rid) sub.payload)
        (fun x hx => hi x (List.mem_cons_of_mem _ hx))
      rw [show (addItems ps r n is (f.register (keyOf ps sub.rid) sub.payload)).1.table k = _ from h2]
      simp only [Front.register, setKey]
      rw [if_neg]
      intro e
      apply hk
      unfold Req.item at hsub
      split at hsub
      · cases hsub; exact Or.inl e.symm
      · cases hp : pick r.rid i with
        | error e' => rw [hp] at hsub; cases hsub
        | ok v =>
          have hv : sub.rid = v := by
            rw [hp] at hsub
            simp only [bind, Except.bind] at hsub
            repeat' (split at hsub <;> [cases hsub; skip])
            cases hsub; rfl
          have ha := at_of_pick hp
          unfold At at ha
          split at ha
          · next l hl =>
            refine Or.inr ⟨l, hl, v, List.mem_of_getElem? ha, ?_⟩
            rw [e, hv]
          · left; rw [e, hv, ha]

theorem add_table (ps : Py → String) (r : Req) (k : String) (hk : ¬ r.Mentions ps k) (f : Front) :
    (f.add ps r).1.table k = f.table k := by
  unfold Front.add
  split
  · rfl
  · split
    · rfl
    · next k' hk' =>
      simp only [Front.register, setKey]
      rw [if_neg]
      intro e
      apply hk
      unfold singleKey at hk'
      split at hk'
      · cases hk'; next h => left; rw [h, e]; rfl
      · cases hk'; next h => right; exact ⟨_, h, _, List.mem_cons_self, by rw [e]; rfl⟩
      · cases hk'
      · cases hk'
  · exact addItems_table ps r _ k hk _ f (fun i hi => List.mem_range.1 hi)

theorem addItems_mono (ps : Py → String) (r : Req) (n : Nat) : ∀ (is : List Nat) (f : Front),
    f.nstates ≤ (addItems ps r n is f).1.nstates ∧ ∀ j, j < f.nstates → (addItems ps r n is f).1.states j = f.states j
  | [], f => ⟨le_refl _, fun _ _ => rfl⟩
  | i :: is, f => by
    unfold addItems
    split
    · exact ⟨le_refl _, fun _ _ => rfl⟩
    · next sub _ =>
      have h := addItems_mono ps r n is (f.register (keyOf ps sub.rid) sub.payload)
      refine ⟨?_, fun j hj => ?_⟩
      · refine le_trans ?_ h.1; simp only [Front.register]; omega
      · refine (h.2 j (by simp only [Front.register]; omega)).trans ?_
        simp only [Front.register]; rw [if_neg (by omega)]

theorem add_mono (ps : Py → String) (r : Req) (f : Front) :
    f.nstates ≤ (f.add ps r).1.nstates ∧ ∀ j, j < f.nstates → (f.add ps r).1.states j = f.states j := by
  unfold Front.add
  split
  · exact ⟨le_refl _, fun _ _ => rfl⟩
  · split
    · exact ⟨le_refl _, fun _ _ => rfl⟩
    · refine ⟨by simp only [Front.register]; omega, fun j hj => ?_⟩
      simp only [Front.register]; rw [if_neg (by omega)]
  · exact addItems_mono ps r _ _ f

theorem finish_other {f : Front} (hf : f.Ok) {j : Nat} {k k' : String} (h : f.table k = some j) (hk : k' ≠ k) (o : Out) :
    (f.finish k' o).table k = some j ∧ (f.finish k' o).states j = f.states j := by
  constructor
  · rw [(finish_table f k' o).1]; simp only [setKey]; rw [if_neg (fun e => hk e.symm)]; exact h
  · unfold Front.finish; split
    · next i hi =>
      dsimp only; split
      · rfl
      · simp only [Front.remove]
        rw [if_neg (by intro e; subst e; exact hk (hf.inj _ _ _ hi h))]
    · rfl

theorem collect_step (ps : Py → String) {k : String} {j : Nat} (e : Ev) (f : Front) (hf : f.Ok) (h : f.table k = some j)
    (hn : ¬ e.Touches ps k) : (f.step ps e).table k = some j ∧ (f.step ps e).states j =
      ⟨(f.states j).out ++ (resultsFor k [e]).map .res, (f.states j).finished || (resultsFor k [e]).any (·.fin)⟩ := by
  have hlt := hf.lt k j h
  cases e with
  | add r =>
    refine ⟨(add_table ps r k hn f).trans h, ?_⟩
    rw [show f.step ps (.add r) = (f.add ps r).1 from rfl, (add_mono ps r f).2 j hlt]
    simp [resultsFor]
  | recv r =>
    refine ⟨by show (f.recv r).table k = some j; rw [(recv_table f r).1]; exact h, ?_⟩
    show (f.recv r).states j = _
    unfold Front.recv resultsFor
    by_cases hr : r.rid = .str k
    · rw [if_pos hr, hr]
      simp only [h]
      simp [resultsFor]
    · rw [if_neg hr]
      split
      · next s hs =>
        split
        · next i hi =>
          simp only
          rw [if_neg (by intro e; subst e; exact hr (by rw [hs, hf.inj _ _ _ hi h]))]
          simp [resultsFor]
        · simp [resultsFor]
      · simp [resultsFor]
  | remove k' =>
    have hk : k' ≠ k := hn
    refine ⟨?_, by simp [Front.step, Front.remove, resultsFor]⟩
    simp only [Front.step, Front.remove, setKey]; rw [if_neg (fun e => hk e.symm)]; exact h
  | abort k' =>
    have := finish_other hf h (show k' ≠ k from hn) .aborted
    exact ⟨this.1, by rw [show f.step ps (.abort k') = f.finish k' .aborted from rfl, this.2]; simp [resultsFor]⟩
  | stale k' =>
    have := finish_other hf h (show k' ≠ k from hn) .timeout
    simp only [Front.step]
    split
    · split
      · exact ⟨h, by simp [resultsFor]⟩
      · exact ⟨this.1, by rw [this.2]; simp [resultsFor]⟩
    · exact ⟨h, by simp [resultsFor]⟩

theorem resultsFor_cons (k : String) (e : Ev) (evs : List Ev) : resultsFor k (e :: evs) = resultsFor k [e] ++ resultsFor k evs := by
  cases e <;> simp only [resultsFor, List.nil_append]
  split <;> rfl

/-- As long as nothing else happens to the id, its state collects exactly the results for it. -/
theorem collect_run (ps : Py → String) {k : String} {j : Nat} : ∀ (evs : List Ev) (f : Front), f.Ok → f.table k = some j →
    (∀ e ∈ evs, ¬ e.Touches ps k) → (f.run ps evs).table k = some j ∧ (f.run ps evs).states j =
      ⟨(f.states j).out ++ (resultsFor k evs).map .res, (f.states j).finished || (resultsFor k evs).any (·.fin)⟩
  | [], f, _, h, _ => ⟨h, by simp [Front.run, resultsFor]⟩
  | e :: evs, f, hf, h, hn => by
    have h1 := collect_step ps e f hf h (hn e List.mem_cons_self)
    have h2 := collect_run ps evs (f.step ps e) (ok_step hf e) h1.1 (fun x hx => hn x (List.mem_cons_of_mem _ hx))
    refine ⟨h2.1, ?_⟩
    rw [show f.run ps (e :: evs) = (f.step ps e).run ps evs from rfl, h2.2, h1.2]
    conv_rhs => rw [resultsFor_cons]
    simp [Bool.or_assoc]

end Verif.Serve
