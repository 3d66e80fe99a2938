import Verif.Sched.Iter
namespace Verif.Sched

/-! ### C52: the token budget -/

/-- C52: the budget in use is exactly what the running requests hold: prompt and output without the cached prefix. -/
theorem C52_budget {c : Cfg} {evs : List Ev} {s : St} (h : Reach c evs s) :
    s.used = (s.running.map (fun r => (r.inp + r.out.length - r.pre : Int))).sum ∧ s.running.length ≤ c.maxRun := by
  have hi := inv_reach h
  refine ⟨?_, hi.count⟩
  rw [hi.used, charges]
  congr 1
  refine List.map_congr_left (fun r hr => ?_)
  rw [charge, (hi.run r hr).1.seq]
  push_cast
  rfl

/-- C52: an idle server has its whole budget. -/
theorem C52_idle {c : Cfg} {evs : List Ev} {s : St} (h : Reach c evs s) (hr : s.running = []) : s.used = 0 := by
  rw [(C52_budget h).1, hr]; rfl

/-- C52: the prompts of the running requests, without cached prefixes, stay within the limit. -/
theorem C52_prompts {c : Cfg} {evs : List Ev} {s : St} (h : Reach c evs s) :
    (s.running.map (fun r => (r.inp - r.pre : Int))).sum ≤ c.maxTotal := (inv_reach h).prompt

def orc (t : Int) : Oracle := fun _ => (t, 0)

def oc : Cfg := ⟨4, 4, 4, [0], 10⟩
def o1 : St := St.init.recv ⟨0, 4, none, [], true⟩
def o2 : St := o1.iter oc (orc 7)
def o3 : St := o2.iter oc (orc 8)

theorem o3_reach : Reach oc [.iter (orc 8), .iter (orc 7), .recv ⟨0, 4, none, [], true⟩] o3 :=
  .step (.iter (orc 8)) (.step (.iter (orc 7)) (.step (.recv ⟨0, 4, none, [], true⟩) .init (by simp [Ev.ok, St.init]))
    (by simp [Ev.ok, orc])) (by simp [Ev.ok, orc])

/-- C52, violated: the tokens a request produces are not reserved, the running requests outgrow the limit (then the model
runner finds no free KV slot, and its exception ends the event loop). -/
theorem C52_overcommit_violated : ∃ c evs s, Reach c evs s ∧ (c.maxTotal : Int) < s.used :=
  ⟨oc, _, o3, o3_reach, by decide +kernel⟩

/-- Non-vacuity: two tokens have been produced and streamed. -/
example : o3.running.map (fun r => (r.inp, r.out, r.pre, r.off)) = [(4, [7, 8], 0, 2)] ∧ o3.used = 6 ∧
    o3.sent.map Msg.decodeIds = [[7], [8]] := by decide +kernel

/-! ### C53: delivery -/

/-- C53: the tokens sent to a client are the tokens produced for its request, in order, each once. -/
theorem C53_prefix {c : Cfg} {evs : List Ev} {s : St} (h : Reach c evs s) (rid : Nat) : said (msgsOf s rid) <+: genOf s rid := by
  have hi := inv_reach h
  by_cases hr : rid ∈ s.subs.map Raw.rid
  · obtain ⟨w, hw, rfl⟩ := List.mem_map.1 hr
    by_cases ho : Open s w.rid
    · rcases ho with ho | ho | ho
      · obtain ⟨v, hv, he⟩ := List.mem_map.1 ho
        have := hi.wait v hv
        rw [he] at this
        rw [this.2.1, this.2.2]
        simp [said]
      · obtain ⟨v, hv, he⟩ := List.mem_map.1 ho
        have := hi.pend v hv
        rw [he] at this
        rw [this.1, this.2.1]
        simp [said]
      · obtain ⟨v, hv, he⟩ := List.mem_map.1 ho
        have := (hi.run v hv).1
        rw [he] at this
        rw [this.said, ← this.out]
        exact List.take_prefix _ _
    · rcases hi.closed w hw ho with ⟨_, _, _, _, _, _, he⟩ | ⟨_, _, h3⟩
      · rw [he]
      · exact h3
  · obtain ⟨h1, h2⟩ := hi.unknown rid hr
    rw [h1, h2]
    simp [said]

/-- C53: every message carries a part of the output up to then and says where it starts. -/
theorem C53_msg {c : Cfg} {evs : List Ev} {s : St} (h : Reach c evs s) {m : Msg} (hm : m ∈ s.sent) :
    m.outputIds <+: genOf s m.rid ∧ m.decodeIds = m.outputIds.drop m.readOffset ∧ m.outputIds ≠ [] := (inv_reach h).msgs m hm

/-- C53: the output in a message is what the client has received up to and including this message. -/
theorem C53_chain {c : Cfg} {evs : List Ev} {s : St} (h : Reach c evs s) {rid : Nat} {pre post : List Msg} {m : Msg}
    (hm : msgsOf s rid = pre ++ m :: post) : said (pre ++ [m]) = m.outputIds := (inv_reach h).chain rid pre m post hm

/-- C53: there is at most one final message about a request, and no message after it. -/
theorem C53_final_last {c : Cfg} {evs : List Ev} {s : St} (h : Reach c evs s) {rid : Nat} {pre post : List Msg} {m : Msg}
    (hm : msgsOf s rid = pre ++ m :: post) (hr : m.reason ≠ none) : post = [] ∧ ∀ q ∈ pre, q.reason = none := by
  have hi := inv_reach h
  have hno : ¬ ∀ q ∈ msgsOf s rid, q.reason = none := fun hh => hr (hh m (by rw [hm]; simp))
  by_cases hs : rid ∈ s.subs.map Raw.rid
  · obtain ⟨w, hw, rfl⟩ := List.mem_map.1 hs
    by_cases ho : Open s w.rid
    · exfalso
      rcases ho with ho | ho | ho
      · obtain ⟨v, hv, he⟩ := List.mem_map.1 ho
        have := hi.wait v hv
        rw [he] at this
        exact hno (by rw [this.2.2]; simp)
      · obtain ⟨v, hv, he⟩ := List.mem_map.1 ho
        have := hi.pend v hv
        rw [he] at this
        exact hno (by rw [this.2.1]; simp)
      · obtain ⟨v, hv, he⟩ := List.mem_map.1 ho
        have := (hi.run v hv).1
        rw [he] at this
        exact hno this.open_
    · rcases hi.closed w hw ho with ⟨ini, q, h1, h2, _⟩ | ⟨_, h2, _⟩
      · rw [h1] at hm
        rcases List.eq_nil_or_concat post with rfl | ⟨post', z, rfl⟩
        · have hm' : ini ++ [q] = pre ++ [m] := hm
          obtain ⟨rfl, _⟩ := List.append_inj' hm' rfl
          exact ⟨rfl, h2⟩
        · exfalso
          have hm' : ini ++ [q] = (pre ++ m :: post') ++ [z] := by
            rw [hm]; simp
          obtain ⟨rfl, _⟩ := List.append_inj' hm' rfl
          exact hr (h2 m (by simp))
      · exact absurd h2 hno
  · exact absurd (by rw [(hi.unknown rid hs).2]; simp) hno

/-- C53: a submitted request is being worked on, or was aborted by its client, or is answered: the client has all its tokens and a
final message. -/
theorem C53_status {c : Cfg} {evs : List Ev} {s : St} (h : Reach c evs s) {w : Raw} (hw : w ∈ s.subs) :
    Open s w.rid ∨ w.rid ∈ s.gone ∨ Answered c w (genOf s w.rid) (msgsOf s w.rid) := by
  by_cases ho : Open s w.rid
  · exact Or.inl ho
  · rcases (inv_reach h).closed w hw ho with h1 | h1
    · exact Or.inr (Or.inr h1)
    · exact Or.inr (Or.inl h1.1)

/-- C53: a streaming client has, after every iteration, all tokens produced so far. -/
theorem C53_prompt_delivery {c : Cfg} {evs : List Ev} {s : St} (h : Reach c evs s) {o : Oracle} (ho : (Ev.iter o).ok s) {r : Req}
    (hr : r ∈ (s.iter c o).running) (hs : r.stream = true) : said (msgsOf (s.iter c o) r.rid) = genOf (s.iter c o) r.rid := by
  have hi' := inv_iter (inv_reach h) ho
  obtain ⟨old, B, rem, ext, u, he, hb, _⟩ := iter_batch (inv_reach h) ho
  obtain ⟨hl, _⟩ := hi'.run r hr
  have hlen : r.out.length ≤ r.off := by
    rw [he, after_running hb] at hr
    obtain ⟨q, hq, rfl⟩ := List.mem_map.1 hr
    have hn : q.reason = none := by
      rcases List.mem_append.1 hq with hq | hq
      · exact (hb.oldOk q hq).2.2.1
      · obtain ⟨_, _, _, hn⟩ := mem_goOn.1 hq
        exact hn
    rw [told_out]
    rw [told_stream] at hs
    by_cases hd : q.due
    · rw [told, if_pos hd]
    · rw [told, if_neg hd]
      by_contra hlt
      exact hd ⟨by rw [hn]; decide, hs, by omega⟩
  rw [hl.said, ← hl.out, List.take_of_length_le hlen]

theorem open_sub {c : Cfg} {s : St} (hi : Inv c s) {rid : Nat} (h : Open s rid) : rid ∈ s.subs.map Raw.rid := by
  rcases h with h | h | h
  · obtain ⟨w, hw, rfl⟩ := List.mem_map.1 h
    exact List.mem_map_of_mem (hi.wait w hw).1
  · obtain ⟨r, hr, rfl⟩ := List.mem_map.1 h
    obtain ⟨_, _, w, hw, rfl⟩ := hi.pend r hr
    exact List.mem_map.2 ⟨w, hw, rfl⟩
  · obtain ⟨r, hr, rfl⟩ := List.mem_map.1 h
    obtain ⟨_, _, _, w, hw, ho⟩ := hi.run r hr
    exact List.mem_map.2 ⟨w, hw, ho.rid.symm⟩

theorem iter_subs (c : Cfg) (s : St) (o : Oracle) : (s.iter c o).subs = s.subs := by
  rw [iter_after]
  dsimp only
  split <;> rfl

/-- C53: nothing happens any more to a request that is answered or aborted and has left the scheduler. -/
theorem C53_closed_stays {c : Cfg} {evs : List Ev} {s : St} (h : Reach c evs s) {rid : Nat} (hr : rid ∈ s.subs.map Raw.rid) (hno : ¬ Open s rid) (e : Ev)
    (he : e.ok s) : ¬ Open (s.step c e) rid ∧ genOf (s.step c e) rid = genOf s rid ∧ msgsOf (s.step c e) rid = msgsOf s rid := by
  have hi := inv_reach h
  cases e with
  | recv w =>
    refine ⟨?_, rfl, rfl⟩
    rintro (ho | ho)
    · rw [St.step, St.recv, List.map_append] at ho
      rcases List.mem_append.1 ho with ho | ho
      · exact hno (Or.inl ho)
      · obtain ⟨v, hv, e⟩ := List.mem_map.1 hr
        exact he v hv (e.trans (by simpa using ho))
    · exact hno (Or.inr ho)
  | abort x =>
    refine ⟨?_, rfl, rfl⟩
    rintro (ho | ho | ho)
    · exact hno (Or.inl ((List.Sublist.map _ List.filter_sublist).subset ho))
    · exact hno (Or.inr (Or.inl ((List.Sublist.map _ List.filter_sublist).subset ho)))
    · refine hno (Or.inr (Or.inr ?_))
      change _ ∈ rids (abortFirst x s.running) at ho
      rw [abortFirst_rids] at ho
      exact ho
  | iter o =>
    obtain ⟨old, B, rem, ext, u, heq, hb, _⟩ := iter_batch hi he
    have n1 : rid ∉ rids old := fun hm => hno (hb.isOpen _ (Or.inl hm)).open
    have n2 : rid ∉ rids B := fun hm => hno (hb.isOpen _ (Or.inr (Or.inl hm))).open
    have n3 : rid ∉ rids rem := fun hm => hno (hb.isOpen _ (Or.inr (Or.inr hm))).open
    rw [St.step, heq]
    refine ⟨?_, genOf_out n2, msgsOf_out hb n1 n2⟩
    rintro (ho | ho | ho)
    · cases ho
    · exact n3 ho
    · change _ ∈ rids (s.after old B rem ext o u).running at ho
      rw [after_running hb, rids_told, rids_append] at ho
      rcases List.mem_append.1 ho with ho | ho
      · exact n1 ho
      · exact n2 (rids_goOn.subset ho)

/-- C53: after an abort and one iteration the request has left the scheduler; no token was produced for it and no message sent. -/
theorem C53_abort {c : Cfg} {evs : List Ev} {s : St} (h : Reach c evs s) {rid : Nat} {o : Oracle} (ho : (Ev.iter o).ok (s.abort rid)) :
    ¬ Open ((s.abort rid).iter c o) rid ∧ genOf ((s.abort rid).iter c o) rid = genOf s rid ∧ msgsOf ((s.abort rid).iter c o) rid = msgsOf s rid := by
  have hi := inv_abort (inv_reach h) rid
  have h1 : rid ∉ (s.abort rid).waiting.map Raw.rid := by simp [St.abort]
  have h2 : rid ∉ rids (s.abort rid).pending := by simp [St.abort, rids]
  have h3 : ∀ r ∈ (s.abort rid).running, r.reason = none → r.rid ≠ rid := by
    have hn : (rids s.running).Nodup := (List.nodup_append.1 (inv_reach h).nodup).2.1
    intro r hr hnone hrid
    change r ∈ abortFirst rid s.running at hr
    have key : ∀ l : List Req, (rids l).Nodup → r ∈ abortFirst rid l → False := by
      intro l
      induction l with
      | nil => intro _ hm; cases hm
      | cons q l ih =>
        intro hn hm
        rw [rids, List.map_cons, List.nodup_cons] at hn
        rw [abortFirst] at hm
        split at hm
        · rename_i he
          rcases List.mem_cons.1 hm with rfl | hm
          · cases hnone
          · exact hn.1 (he.trans hrid.symm ▸ mem_rids hm)
        · rename_i he
          rcases List.mem_cons.1 hm with rfl | hm
          · exact he hrid
          · exact ih hn.2 hm
    exact key _ hn hr
  obtain ⟨old, B, rem, ext, u, heq, hb, _⟩ := iter_batch hi ho
  have hshape : ¬ (rid ∈ rids old ∨ rid ∈ rids B ∨ rid ∈ rids rem) := by
    intro hm
    rcases hb.isOpen _ hm with hh | hh | ⟨r, hr, he, hn⟩
    · exact h1 hh
    · exact h2 hh
    · exact h3 r hr hn he
  rw [not_or, not_or] at hshape
  rw [heq]
  refine ⟨?_, genOf_out hshape.2.1, msgsOf_out hb hshape.1 hshape.2.1⟩
  rintro (hh | hh | hh)
  · cases hh
  · exact hshape.2.2 hh
  · change _ ∈ rids ((s.abort rid).after old B rem ext o u).running at hh
    rw [after_running hb, rids_told, rids_append] at hh
    rcases List.mem_append.1 hh with hh | hh
    · exact hshape.1 hh
    · exact hshape.2.1 (rids_goOn.subset hh)

/-- Non-vacuity: a request that ended with a stop token, and one that was aborted while it was running. -/
def d4 : St := ((o3.recv ⟨1, 2, some 3, [5], false⟩).abort 0).iter oc (orc 9)
def d5 : St := d4.iter oc (orc 5)

theorem d5_reach : ∃ evs, Reach oc evs d5 := by
  refine ⟨_, .step (.iter (orc 5)) (s := d4) (.step (.iter (orc 9)) (.step (.abort 0) (.step (.recv ⟨1, 2, some 3, [5], false⟩) o3_reach ?_) trivial) ?_) ?_⟩
  · intro q hq
    have : o3.subs = [⟨0, 4, none, [], true⟩] := rfl
    rw [this, List.mem_singleton] at hq
    rw [hq]; decide
  · simp [Ev.ok, orc]
  · simp [Ev.ok, orc]

example : d5.gone = [0] ∧ d5.running = [] ∧ genOf d5 0 = [7, 8] ∧ genOf d5 1 = [9, 5] ∧
    msgsOf d5 1 = [⟨1, some .eos, [9, 5], 0, [9, 5]⟩] := by decide +kernel

/-! ### C54: when an answer ends -/

/-- C54: a final message comes with a complete answer to the request: up to the first stop token, or to the token limit, but at
least one token. -/
theorem C54_complete {c : Cfg} {evs : List Ev} {s : St} (h : Reach c evs s) {m : Msg} (hm : m ∈ s.sent) (hr : m.reason ≠ none) :
    ∃ w ∈ s.subs, w.rid = m.rid ∧ Complete c w m.outputIds m.reason := by
  have hi := inv_reach h
  have hmem : m ∈ msgsOf s m.rid := List.mem_filter.2 ⟨hm, by simp⟩
  have hs : m.rid ∈ s.subs.map Raw.rid := by
    by_contra hs
    rw [(hi.unknown _ hs).2] at hmem
    cases hmem
  obtain ⟨w, hw, he⟩ := List.mem_map.1 hs
  refine ⟨w, hw, he, ?_⟩
  by_cases ho : Open s m.rid
  · exfalso
    rcases ho with ho | ho | ho
    · obtain ⟨v, hv, he⟩ := List.mem_map.1 ho
      have := hi.wait v hv
      rw [he] at this
      rw [this.2.2] at hmem
      cases hmem
    · obtain ⟨v, hv, he⟩ := List.mem_map.1 ho
      have := hi.pend v hv
      rw [he] at this
      rw [this.2.1] at hmem
      cases hmem
    · obtain ⟨v, hv, he⟩ := List.mem_map.1 ho
      have := (hi.run v hv).1
      rw [he] at this
      exact hr (this.open_ m hmem)
  · rw [← he] at ho hmem
    rcases hi.closed w hw ho with ⟨ini, q, h1, h2, h3, h4, _⟩ | ⟨_, h2, _⟩
    · rw [h1] at hmem
      rcases List.mem_append.1 hmem with hq | hq
      · exact absurd (h2 m hq) hr
      · rw [List.mem_singleton.1 hq, h4]
        exact h3
    · exact absurd (h2 m hmem) hr

/-- C54: an answer has at most `max_new_tokens` tokens, if at least one is asked for. -/
theorem C54_limit_partial {c : Cfg} {evs : List Ev} {s : St} (h : Reach c evs s) {w : Raw} (hw : w ∈ s.subs) (hl : 1 ≤ w.limit c) :
    ((genOf s w.rid).length : Int) ≤ w.limit c := by
  have := (inv_reach h).lim w hw
  omega

def z1 : St := (St.init.recv ⟨0, 1, some 0, [], false⟩).iter oc (orc 7)

/-- C54, violated: a request for no tokens gets one. -/
theorem C54_zero_violated : ∃ c evs s w, Reach c evs s ∧ w ∈ s.subs ∧ w.limit c = 0 ∧ msgsOf s w.rid = [⟨0, some .length, [7], 0, [7]⟩] :=
  ⟨oc, [.iter (orc 7), .recv ⟨0, 1, some 0, [], false⟩], z1, ⟨0, 1, some 0, [], false⟩,
    .step (.iter (orc 7)) (.step (.recv ⟨0, 1, some 0, [], false⟩) .init (by simp [Ev.ok, St.init])) (by simp [Ev.ok, orc]),
    by decide +kernel, rfl, by decide +kernel⟩

/-! ### C55: every request is answered -/

theorem left_pos {G : List Int} {M : List Msg} {r : Req} (h : Live G M r) : 1 ≤ r.left := by
  rw [Req.left]
  rcases h.lt with h | h
  · rw [h]; simp only [List.length_nil, Nat.cast_zero]; omega
  · omega

theorem wsum_goOn {ext : Bool} {o : Oracle} {B : List Req} (h : ∀ r ∈ B, 1 ≤ r.left) : wsum (goOn ext o B) + B.length ≤ wsum B := by
  induction B with
  | nil => exact le_refl _
  | cons r B ih =>
    have h1 := h r List.mem_cons_self
    have h2 := ih (fun q hq => h q (List.mem_cons_of_mem _ hq))
    have h3 : (adv ext o r).left + 1 ≤ r.left := by
      simp only [Req.left, adv_maxNew, adv_out, List.length_append, List.length_singleton] at h1 ⊢
      push_cast
      omega
    simp only [goOn, List.map_cons, List.filter_cons] at h2 ⊢
    split
    · simp only [wsum, List.map_cons, List.sum_cons, List.length_cons] at h2 ⊢
      omega
    · simp only [wsum, List.map_cons, List.sum_cons, List.length_cons] at h2 ⊢
      omega

/-- Nothing is left to do. -/
def Quiet (c : Cfg) (s : St) : Prop := s.waiting = [] ∧ s.running = [] ∧ ∀ r ∈ s.pending, ¬ Fits c r.inp

theorem work_iter {c : Cfg} {s : St} (hi : Inv c s) (hm : 0 < c.maxRun) {o : Oracle} (ho : ∀ q ∈ s.subs, (o q.rid).2 ≤ q.inp) :
    Quiet c (s.iter c o) ∨ work c (s.iter c o) < work c s := by
  obtain ⟨old, B, rem, ext, u, he, hb, hw, hq⟩ := iter_batch hi ho
  rw [he]
  by_cases hB : B = []
  · left
    obtain ⟨h1, h2⟩ := hq hB hm
    refine ⟨rfl, ?_, h2⟩
    rw [after_running hb, h1, hB]
    rfl
  · right
    have h1 : wsum (goOn ext o B) + B.length ≤ wsum B := wsum_goOn (fun r hr => left_pos (hb.new r hr).1)
    have h2 : 0 < B.length := List.length_pos_of_ne_nil hB
    have h3 : work c (s.after old B rem ext o u) = wsum (rem.filter (fun r => Fits c r.inp)) + wsum ((old ++ goOn ext o B).map told) := by
      rw [work, after_running hb]
      change wsum ((rem ++ []).filter _) + wsum _ = _
      rw [List.append_nil]
    have h4 : wsum ((old ++ goOn ext o B).map told) = wsum (old ++ goOn ext o B) := by
      simp only [wsum, List.map_map]
      congr 1
      refine List.map_congr_left (fun r _ => ?_)
      simp [Req.left]
    rw [h3, h4, wsum_append]
    omega

theorem admit_no {c : Cfg} {l : List Req} (h : ∀ r ∈ l, ¬ Fits c r.inp) : ∀ n u, 0 ≤ u → (admit c n u c.maxPrefill l).1 = [] := by
  intro n u hu
  by_contra hne
  obtain ⟨r, hr⟩ := List.exists_mem_of_ne_nil _ hne
  have := admit_ok c l n u c.maxPrefill hu r hr
  exact h r ((admit_perm c l n u c.maxPrefill).mem_iff.1 (List.mem_append_left _ hr)) this

theorem quiet_iter {c : Cfg} {s : St} (hi : Inv c s) (hq : Quiet c s) {o : Oracle} (ho : ∀ q ∈ s.subs, (o q.rid).2 ≤ q.inp) : Quiet c (s.iter c o) := by
  obtain ⟨h1, h2, h3⟩ := hq
  have hu : s.used = 0 := by rw [hi.used, h2]; rfl
  rw [St.iter, h1, h2, hu]
  simp only [purge, List.map_nil, List.append_nil, List.length_nil]
  have h0 := admit_no h3 0 0 (le_refl _)
  rw [h0]
  simp only [ne_eq, not_true_eq_false, if_false]
  refine ⟨rfl, rfl, fun r hr => h3 r ?_⟩
  exact (admit_perm c s.pending 0 0 c.maxPrefill).mem_iff.1 (List.mem_append_right _ hr)

theorem reach_iters {c : Cfg} {s : St} {os : List Oracle} {evs : List Ev} (h : Reach c evs s) (ho : ∀ o ∈ os, ∀ q ∈ s.subs, (o q.rid).2 ≤ q.inp) :
    (∃ evs', Reach c evs' (s.iters c os)) ∧ (s.iters c os).subs = s.subs ∧ (s.iters c os).gone = s.gone := by
  induction os generalizing s evs with
  | nil => exact ⟨⟨evs, h⟩, rfl, rfl⟩
  | cons o os ih =>
    have h1 : Reach c (.iter o :: evs) (s.iter c o) := .step (.iter o) h (ho o List.mem_cons_self)
    have hs := iter_subs c s o
    have hg : (s.iter c o).gone = s.gone := by
      rw [iter_after]
      dsimp only
      split <;> rfl
    obtain ⟨a1, a2, a3⟩ := ih h1 (by rw [hs]; exact fun o ho' => ho o (List.mem_cons_of_mem _ ho'))
    exact ⟨a1, a2.trans hs, a3.trans hg⟩

theorem quiet_iters {c : Cfg} {s : St} {evs : List Ev} (h : Reach c evs s) (hm : 0 < c.maxRun) {os : List Oracle}
    (ho : ∀ o ∈ os, ∀ q ∈ s.subs, (o q.rid).2 ≤ q.inp) (hl : Quiet c s ∨ work c s < os.length) : Quiet c (s.iters c os) := by
  induction os generalizing s evs with
  | nil =>
    rcases hl with hl | hl
    · exact hl
    · cases hl
  | cons o os ih =>
    have h0 := ho o List.mem_cons_self
    have h1 : Reach c (.iter o :: evs) (s.iter c o) := .step (.iter o) h h0
    refine ih h1 (by rw [iter_subs]; exact fun o ho' => ho o (List.mem_cons_of_mem _ ho')) ?_
    rcases hl with hl | hl
    · exact Or.inl (quiet_iter (inv_reach h) hl h0)
    · rcases work_iter (inv_reach h) hm h0 with h2 | h2
      · exact Or.inl h2
      · rw [List.length_cons] at hl
        exact Or.inr (by omega)

/-- C55: when nothing new arrives, every request that fits into an empty server and is not aborted is answered within as many
iterations as tokens may still be produced, plus one, whatever the model returns. -/
theorem C55_answered_partial {c : Cfg} {s : St} {evs : List Ev} (h : Reach c evs s) (hm : 0 < c.maxRun) {os : List Oracle}
    (ho : ∀ o ∈ os, (Ev.iter o).ok s) (hl : work c s < os.length) {w : Raw} (hw : w ∈ s.subs) (hf : Fits c w.inp) (hg : w.rid ∉ s.gone) :
    Answered c w (genOf (s.iters c os) w.rid) (msgsOf (s.iters c os) w.rid) := by
  obtain ⟨⟨evs', h'⟩, hs, hg'⟩ := reach_iters h ho
  obtain ⟨q1, q2, q3⟩ := quiet_iters h hm ho (Or.inr hl)
  have hw' : w ∈ (s.iters c os).subs := by rw [hs]; exact hw
  rcases C53_status h' hw' with ho' | hg'' | ha
  · exfalso
    rcases ho' with ho' | ho' | ho'
    · rw [q1] at ho'; cases ho'
    · obtain ⟨r, hr, he⟩ := List.mem_map.1 ho'
      obtain ⟨_, _, v, hv, rfl⟩ := (inv_reach h').pend r hr
      have : v = w := List.inj_on_of_nodup_map (inv_reach h').subs hv hw' he
      subst this
      exact q3 _ hr hf
    · rw [q2] at ho'; cases ho'
  · rw [hg'] at hg''
    exact absurd hg'' hg
  · exact ha

/-- Non-vacuity: two requests, of which one waits until the other has ended. -/
example : ∃ s : St, (∃ evs, Reach oc evs s) ∧ work oc s = 20 ∧ s.subs.length = 2 ∧ s.gone = [] ∧ s.pending = [] ∧ (s.iter oc (orc 1)).pending.length = 1 := by
  refine ⟨o1.recv ⟨1, 3, none, [], false⟩, ⟨_, .step (.recv ⟨1, 3, none, [], false⟩)
    (.step (.recv ⟨0, 4, none, [], true⟩) .init (by simp [Ev.ok, St.init])) ?_⟩, by decide +kernel, rfl, rfl, rfl, by decide +kernel⟩
  intro q hq
  have : o1.subs = [⟨0, 4, none, [], true⟩] := rfl
  change q ∈ o1.subs at hq
  rw [this, List.mem_singleton] at hq
  rw [hq]; decide

/-- C55, violated: a request that does not fit is neither answered nor rejected; whatever happens, its client never gets a message. -/
theorem C55_oversize_violated {c : Cfg} {s : St} {evs : List Ev} (h : Reach c evs s) {w : Raw} (hw : w ∈ s.subs) (hf : ¬ Fits c w.inp) :
    genOf s w.rid = [] ∧ msgsOf s w.rid = [] := by
  have hi := inv_reach h
  have hg : genOf s w.rid = [] := by
    by_contra hne
    obtain ⟨t, ht⟩ := List.exists_mem_of_ne_nil _ hne
    obtain ⟨q, hq, _⟩ := List.mem_map.1 ht
    obtain ⟨hq1, hq2⟩ := List.mem_filter.1 hq
    obtain ⟨v, hv, h1, h2⟩ := hi.small q hq1
    have : v = w := List.inj_on_of_nodup_map hi.subs hv hw (h1.trans (by simpa using hq2))
    subst this
    exact hf h2
  refine ⟨hg, ?_⟩
  by_contra hne
  obtain ⟨m, hm⟩ := List.exists_mem_of_ne_nil _ hne
  obtain ⟨hm1, hm2⟩ := List.mem_filter.1 hm
  obtain ⟨h1, _, h3⟩ := hi.msgs m hm1
  have he : m.rid = w.rid := by simpa using hm2
  rw [he, hg, List.prefix_nil] at h1
  exact h3 h1

/-- Non-vacuity of `C55_oversize_violated`. -/
example : ∃ evs s, Reach oc evs s ∧ s.subs = [⟨0, 5, none, [], true⟩] ∧ ¬ Fits oc 5 ∧ s.pending.length = 1 :=
  ⟨[.iter (orc 7), .recv ⟨0, 5, none, [], true⟩], (St.init.recv ⟨0, 5, none, [], true⟩).iter oc (orc 7),
    .step (.iter (orc 7)) (.step (.recv ⟨0, 5, none, [], true⟩) .init (by simp [Ev.ok, St.init])) (by simp [Ev.ok, orc]),
    rfl, by decide, by decide +kernel⟩

/-! Starvation: new requests go first -/

def sc : Cfg := ⟨4, 8, 100, [], 10⟩
def old0 : Req := ⟨0, 1, 10, [], true, 2, 0, [7], none, 1⟩
def Stuck (n : Nat) (s : St) : Prop := s.waiting = [] ∧ s.pending = [] ∧ s.running = [old0] ∧ s.used = 2 ∧ (∀ q ∈ s.subs, q.rid ≤ n) ∧ s.gone = [] ∧ genOf s 0 = [7]

theorem stuck_step {n : Nat} {s : St} (h : Stuck n s) : Stuck (n + 1) ((s.recv ⟨n + 1, 1, some 1, [], false⟩).iter sc (orc 7)) := by
  obtain ⟨h1, h2, h3, h4, h5, h6, h7⟩ := h
  have hit : (s.recv ⟨n + 1, 1, some 1, [], false⟩).iter sc (orc 7) =
      { s with waiting := [], pending := [], running := [old0], used := 2
               subs := s.subs ++ [⟨n + 1, 1, some 1, [], false⟩]
               sent := s.sent ++ [] ++ [⟨n + 1, some .length, [7], 0, [7]⟩], gen := s.gen ++ [(n + 1, 7)] } := by
    rw [St.iter, St.recv, h1, h2, h3, h4]
    simp [purge, old0, admit, absorb, credit, push, Req.check, orc, Raw.toReq, mergeStop, sc, route, emit, Req.due, Req.final, freed]
  rw [hit]
  refine ⟨rfl, rfl, rfl, rfl, ?_, h6, ?_⟩
  · intro q hq
    rcases List.mem_append.1 hq with hq | hq
    · exact (h5 q hq).trans (Nat.le_succ _)
    · rw [List.mem_singleton.1 hq]
  · rw [genOf] at h7 ⊢
    simpa using h7

theorem stuck_reach (n : Nat) : ∃ evs s, Reach sc evs s ∧ n ≤ (evs.filter (fun e => match e with | .iter _ => true | _ => false)).length ∧
    Stuck n s := by
  induction n with
  | zero =>
    refine ⟨[.iter (orc 7), .recv ⟨0, 1, none, [], true⟩], (St.init.recv ⟨0, 1, none, [], true⟩).iter sc (orc 7),
      .step (.iter (orc 7)) (.step (.recv ⟨0, 1, none, [], true⟩) .init (by simp [Ev.ok, St.init])) (by simp [Ev.ok, orc]), Nat.zero_le _, ?_⟩
    refine ⟨rfl, rfl, by decide +kernel, by decide +kernel, ?_, rfl, by decide +kernel⟩
    intro q hq
    have : ((St.init.recv ⟨0, 1, none, [], true⟩).iter sc (orc 7)).subs = [⟨0, 1, none, [], true⟩] := by rw [iter_subs]; rfl
    rw [this, List.mem_singleton] at hq
    rw [hq]
  | succ n ih =>
    obtain ⟨evs, s, h1, h2, h3⟩ := ih
    refine ⟨.iter (orc 7) :: .recv ⟨n + 1, 1, some 1, [], false⟩ :: evs, (s.recv ⟨n + 1, 1, some 1, [], false⟩).iter sc (orc 7), ?_, ?_, stuck_step h3⟩
    · refine .step (.iter (orc 7)) (.step (.recv ⟨n + 1, 1, some 1, [], false⟩) h1 ?_) (by simp [Ev.ok, orc])
      intro q hq
      have := h3.2.2.2.2.1 q hq
      change q.rid ≠ n + 1
      omega
    · simp only [List.filter_cons]
      simpa using h2

/-- C55, violated: a running request can wait for its second token for any number of iterations, while newer requests are answered. -/
theorem C55_starvation_violated (n : Nat) : ∃ evs s, Reach sc evs s ∧
    n ≤ (evs.filter (fun e => match e with | .iter _ => true | _ => false)).length ∧ s.gone = [] ∧ Open s 0 ∧ genOf s 0 = [7] := by
  obtain ⟨evs, s, h1, h2, _, _, h3, _, _, h4, h5⟩ := stuck_reach n
  exact ⟨evs, s, h1, h2, h4, Or.inr (Or.inr (by rw [h3]; simp [old0])), h5⟩

end Verif.Sched
