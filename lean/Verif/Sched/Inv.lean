import Verif.Sched.Lemmas
import Verif.Sched.Spec
namespace Verif.Sched

/-- Where a request comes from. -/
structure Of (c : Cfg) (w : Raw) (r : Req) : Prop where
  rid : r.rid = w.rid
  inp : r.inp = w.inp
  maxNew : r.maxNew = w.limit c
  stop : r.stop = mergeStop w.stop c.eos

structure Live (G : List Int) (M : List Msg) (r : Req) : Prop where
  seq : r.seq = r.inp + r.out.length
  pre : r.pre ≤ r.inp
  out : r.out = G
  nostop : ∀ t ∈ r.out, t ∉ r.stop
  lt : r.out = [] ∨ (r.out.length : Int) < r.maxNew
  said : said M = r.out.take r.off
  off : r.off ≤ r.out.length
  open_ : ∀ m ∈ M, m.reason = none
  reason : r.reason = none ∨ r.reason = some .abort

def MsgOk (G : List Int) (m : Msg) : Prop := m.outputIds <+: G ∧ m.decodeIds = m.outputIds.drop m.readOffset ∧ m.outputIds ≠ []

def prompt (r : Req) : Int := (r.inp : Int) - r.pre

def prompts (l : List Req) : Int := (l.map prompt).sum

def rids (l : List Req) : List Nat := l.map Req.rid

structure Inv (c : Cfg) (s : St) : Prop where
  subs : (s.subs.map Raw.rid).Nodup
  nodup : (s.waiting.map Raw.rid ++ rids s.pending ++ rids s.running).Nodup
  wait : ∀ w ∈ s.waiting, w ∈ s.subs ∧ genOf s w.rid = [] ∧ msgsOf s w.rid = []
  pend : ∀ r ∈ s.pending, genOf s r.rid = [] ∧ msgsOf s r.rid = [] ∧ ∃ w ∈ s.subs, r = w.toReq c
  run : ∀ r ∈ s.running, Live (genOf s r.rid) (msgsOf s r.rid) r ∧ r.out ≠ [] ∧ (r.reason = some .abort → r.rid ∈ s.gone) ∧ ∃ w ∈ s.subs, Of c w r
  closed : ∀ w ∈ s.subs, ¬ Open s w.rid → Answered c w (genOf s w.rid) (msgsOf s w.rid) ∨
    (w.rid ∈ s.gone ∧ (∀ m ∈ msgsOf s w.rid, m.reason = none) ∧ said (msgsOf s w.rid) <+: genOf s w.rid)
  msgs : ∀ m ∈ s.sent, MsgOk (genOf s m.rid) m
  unknown : ∀ rid, rid ∉ s.subs.map Raw.rid → genOf s rid = [] ∧ msgsOf s rid = []
  small : ∀ p ∈ s.gen, ∃ w ∈ s.subs, w.rid = p.1 ∧ w.inp ≤ c.maxPrefill ∧ w.inp ≤ c.maxTotal
  lim : ∀ w ∈ s.subs, ((genOf s w.rid).length : Int) ≤ max 1 (w.limit c)
  chain : ∀ rid pre m post, msgsOf s rid = pre ++ m :: post → said (pre ++ [m]) = m.outputIds
  used : s.used = charges s.running
  count : s.running.length ≤ c.maxRun
  prompt : prompts s.running ≤ c.maxTotal

theorem of_toReq (c : Cfg) (w : Raw) : Of c w (w.toReq c) := ⟨rfl, rfl, rfl, rfl⟩

theorem live_toReq (c : Cfg) (w : Raw) : Live [] [] (w.toReq c) :=
  ⟨by simp [Raw.toReq], Nat.zero_le _, rfl, by simp [Raw.toReq], Or.inl rfl, by simp [said, Raw.toReq], Nat.zero_le _, by simp, Or.inl rfl⟩

theorem inv_init (c : Cfg) : Inv c .init :=
  ⟨by simp [St.init], by simp [St.init, rids], by simp [St.init], by simp [St.init], by simp [St.init], by simp [St.init], by simp [St.init],
    by simp [St.init, genOf, msgsOf], by simp [St.init], by simp [St.init], by simp [St.init, msgsOf], rfl, Nat.zero_le _, by simp [St.init, prompts]⟩

theorem mem_rids {l : List Req} {r : Req} (h : r ∈ l) : r.rid ∈ rids l := List.mem_map_of_mem h

theorem inv_recv {c : Cfg} {s : St} (h : Inv c s) {w : Raw} (hw : ∀ q ∈ s.subs, q.rid ≠ w.rid) : Inv c (s.recv w) := by
  have hn : w.rid ∉ s.subs.map Raw.rid := by
    intro hm
    obtain ⟨q, hq, he⟩ := List.mem_map.1 hm
    exact hw q hq he
  obtain ⟨g0, m0⟩ := h.unknown w.rid hn
  have hlive : w.rid ∉ s.waiting.map Raw.rid ++ rids s.pending ++ rids s.running := by
    intro hm
    rcases List.mem_append.1 hm with hm | hm
    · rcases List.mem_append.1 hm with hm | hm
      · obtain ⟨q, hq, he⟩ := List.mem_map.1 hm
        exact hw q (h.wait q hq).1 he
      · obtain ⟨q, hq, he⟩ := List.mem_map.1 hm
        obtain ⟨_, _, v, hv, rfl⟩ := h.pend q hq
        exact hw v hv he
    · obtain ⟨q, hq, he⟩ := List.mem_map.1 hm
      obtain ⟨_, _, _, v, hv, ho⟩ := h.run q hq
      exact hw v hv (ho.rid.symm.trans he)
  have hsub : ∀ v ∈ s.subs, v ∈ (s.recv w).subs := fun v hv => List.mem_append_left _ hv
  refine ⟨?_, ?_, ?_, ?_, ?_, ?_, h.msgs, ?_, ?_, ?_, h.chain, h.used, h.count, h.prompt⟩
  · change ((s.subs ++ [w]).map Raw.rid).Nodup
    rw [List.map_append, List.nodup_append]
    refine ⟨h.subs, by simp, ?_⟩
    intro a ha b hb
    rw [List.map_singleton, List.mem_singleton] at hb
    subst hb
    rintro rfl
    exact hn ha
  · change ((s.waiting ++ [w]).map Raw.rid ++ rids s.pending ++ rids s.running).Nodup
    have : ((s.waiting ++ [w]).map Raw.rid ++ rids s.pending ++ rids s.running).Perm
        (w.rid :: (s.waiting.map Raw.rid ++ rids s.pending ++ rids s.running)) := by
      simp only [List.map_append, List.map_cons, List.map_nil, List.append_assoc, List.cons_append, List.nil_append]
      exact List.perm_middle
    rw [this.nodup_iff, List.nodup_cons]
    exact ⟨hlive, h.nodup⟩
  · intro v hv
    rcases List.mem_append.1 hv with hv | hv
    · obtain ⟨h1, h2⟩ := h.wait v hv
      exact ⟨hsub v h1, h2⟩
    · rw [List.mem_singleton.1 hv]
      exact ⟨List.mem_append_right _ (List.mem_singleton.2 rfl), g0, m0⟩
  · intro r hr
    obtain ⟨h1, h2, v, hv, h3⟩ := h.pend r hr
    exact ⟨h1, h2, v, hsub v hv, h3⟩
  · intro r hr
    obtain ⟨h1, h2, h4, v, hv, h3⟩ := h.run r hr
    exact ⟨h1, h2, h4, v, hsub v hv, h3⟩
  · intro v hv hno
    rcases List.mem_append.1 hv with hv | hv
    · refine h.closed v hv (fun ho => hno ?_)
      rcases ho with ho | ho
      · exact Or.inl (by simp only [St.recv, List.map_append]; exact List.mem_append_left _ ho)
      · exact Or.inr ho
    · rw [List.mem_singleton.1 hv] at hno
      exact absurd (Or.inl (by simp [St.recv])) hno
  · intro rid hr
    refine h.unknown rid (fun hm => hr ?_)
    simp only [St.recv, List.map_append]
    exact List.mem_append_left _ hm
  · intro p hp
    obtain ⟨v, hv, h1⟩ := h.small p hp
    exact ⟨v, hsub v hv, h1⟩
  · intro v hv
    change ((genOf s v.rid).length : Int) ≤ _
    rcases List.mem_append.1 hv with hv | hv
    · exact h.lim v hv
    · rw [List.mem_singleton.1 hv, g0]
      simp only [List.length_nil, Nat.cast_zero]; omega

theorem abortFirst_rids (rid : Nat) (l : List Req) : rids (abortFirst rid l) = rids l := by
  induction l with
  | nil => rfl
  | cons r l ih =>
    rw [abortFirst]
    split
    · rfl
    · simp only [rids, List.map_cons] at ih ⊢
      rw [ih]

theorem mem_abortFirst {rid : Nat} {l : List Req} {r : Req} (h : r ∈ abortFirst rid l) :
    r ∈ l ∨ ∃ q ∈ l, q.rid = rid ∧ r = { q with reason := some .abort } := by
  induction l with
  | nil => cases h
  | cons q l ih =>
    rw [abortFirst] at h
    split at h
    · rename_i he
      rcases List.mem_cons.1 h with rfl | h
      · exact Or.inr ⟨q, List.mem_cons_self, he, rfl⟩
      · exact Or.inl (List.mem_cons_of_mem _ h)
    · rcases List.mem_cons.1 h with rfl | h
      · exact Or.inl List.mem_cons_self
      · rcases ih h with h | ⟨p, hp, h1⟩
        · exact Or.inl (List.mem_cons_of_mem _ h)
        · exact Or.inr ⟨p, List.mem_cons_of_mem _ hp, h1⟩

theorem abortFirst_sums (rid : Nat) (l : List Req) : charges (abortFirst rid l) = charges l ∧ prompts (abortFirst rid l) = prompts l ∧
    (abortFirst rid l).length = l.length := by
  induction l with
  | nil => exact ⟨rfl, rfl, rfl⟩
  | cons r l ih =>
    rw [abortFirst]
    split
    · exact ⟨rfl, rfl, rfl⟩
    · obtain ⟨h1, h2, h3⟩ := ih
      refine ⟨?_, ?_, ?_⟩
      · rw [charges_cons, charges_cons, h1]
      · simp only [prompts, List.map_cons, List.sum_cons] at h2 ⊢
        rw [h2]
      · rw [List.length_cons, List.length_cons, h3]

theorem inv_abort {c : Cfg} {s : St} (h : Inv c s) (rid : Nat) : Inv c (s.abort rid) := by
  have hgone : ∀ x ∈ s.gone, x ∈ (s.abort rid).gone := by
    intro x hx
    simp only [St.abort]
    split
    · exact List.mem_cons_of_mem _ hx
    · exact hx
  have hnew : rid ∈ s.subs.map Raw.rid → rid ∈ (s.abort rid).gone := by
    intro hr
    simp only [St.abort]
    rw [if_pos hr]
    exact List.mem_cons_self
  obtain ⟨h1, h2, h3⟩ := abortFirst_sums rid s.running
  have hsl : ((s.abort rid).waiting.map Raw.rid ++ rids (s.abort rid).pending ++ rids (s.abort rid).running).Sublist
      (s.waiting.map Raw.rid ++ rids s.pending ++ rids s.running) := by
    simp only [St.abort, abortFirst_rids]
    refine (List.Sublist.append ?_ ?_).append (List.Sublist.refl _)
    · exact List.Sublist.map _ List.filter_sublist
    · exact List.Sublist.map _ List.filter_sublist
  refine ⟨h.subs, h.nodup.sublist hsl, ?_, ?_, ?_, ?_, h.msgs, h.unknown, h.small, h.lim, h.chain, ?_, ?_, ?_⟩
  · exact fun w hw => h.wait w (List.mem_filter.1 hw).1
  · exact fun r hr => h.pend r (List.mem_filter.1 hr).1
  · intro r hr
    rcases mem_abortFirst hr with hr | ⟨q, hq, he, rfl⟩
    · obtain ⟨a1, a2, a3, a4⟩ := h.run r hr
      exact ⟨a1, a2, fun hh => hgone _ (a3 hh), a4⟩
    · obtain ⟨a1, a2, a3, w, hw, a4⟩ := h.run q hq
      refine ⟨⟨a1.seq, a1.pre, a1.out, a1.nostop, a1.lt, a1.said, a1.off, a1.open_, Or.inr rfl⟩, a2, fun _ => ?_, w, hw, ⟨a4.rid, a4.inp, a4.maxNew, a4.stop⟩⟩
      change q.rid ∈ _
      rw [he]
      refine hnew ?_
      rw [← he, a4.rid]
      exact List.mem_map_of_mem hw
  · intro w hw hno
    by_cases ho : Open s w.rid
    · have he : w.rid = rid := by
        by_contra hne
        refine hno ?_
        rcases ho with ho | ho | ho
        · obtain ⟨v, hv, he⟩ := List.mem_map.1 ho
          refine Or.inl (List.mem_map.2 ⟨v, List.mem_filter.2 ⟨hv, ?_⟩, he⟩)
          simpa [he] using hne
        · obtain ⟨v, hv, he⟩ := List.mem_map.1 ho
          refine Or.inr (Or.inl (List.mem_map.2 ⟨v, List.mem_filter.2 ⟨hv, ?_⟩, he⟩))
          simpa [he] using hne
        · exact Or.inr (Or.inr (by
            change _ ∈ rids (abortFirst rid s.running)
            rw [abortFirst_rids]; exact ho))
      refine Or.inr ⟨he ▸ hnew (he ▸ List.mem_map_of_mem hw), ?_⟩
      change (∀ m ∈ msgsOf s w.rid, _) ∧ said (msgsOf s w.rid) <+: genOf s w.rid
      rcases ho with ho | ho | ho
      · obtain ⟨v, hv, he⟩ := List.mem_map.1 ho
        obtain ⟨_, b1, b2⟩ := h.wait v hv
        rw [he] at b1 b2
        rw [b1, b2]
        exact ⟨by simp, by simp [said]⟩
      · obtain ⟨v, hv, he⟩ := List.mem_map.1 ho
        obtain ⟨b1, b2, _⟩ := h.pend v hv
        rw [he] at b1 b2
        rw [b1, b2]
        exact ⟨by simp, by simp [said]⟩
      · obtain ⟨v, hv, he⟩ := List.mem_map.1 ho
        obtain ⟨b1, _⟩ := h.run v hv
        rw [he] at b1
        refine ⟨b1.open_, ?_⟩
        rw [b1.said, ← b1.out]
        exact List.take_prefix _ _
    · rcases h.closed w hw ho with hc | ⟨a1, a2⟩
      · exact Or.inl hc
      · exact Or.inr ⟨hgone _ a1, a2⟩
  · change s.used = _
    rw [h.used]
    exact h1.symm
  · change (abortFirst rid s.running).length ≤ _
    rw [h3]; exact h.count
  · change prompts (abortFirst rid s.running) ≤ _
    rw [h2]; exact h.prompt

end Verif.Sched
