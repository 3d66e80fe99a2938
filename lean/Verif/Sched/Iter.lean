import Verif.Sched.Inv
namespace Verif.Sched

theorem pick_none {α : Type} {L : List Req} (p : Req → Bool) (f : Req → α) (key : α → Nat) (hf : ∀ r, key (f r) = r.rid) {rid : Nat}
    (hr : rid ∉ rids L) : ((L.filter p).map f).filter (fun m => key m = rid) = [] := by
  rw [List.filter_eq_nil_iff]
  intro m hm
  obtain ⟨r, hr', rfl⟩ := List.mem_map.1 hm
  rw [hf]
  have := mem_rids (List.mem_filter.1 hr').1
  intro he
  rw [decide_eq_true_eq] at he
  exact hr (he ▸ this)

theorem pick {α : Type} {L : List Req} (hn : (rids L).Nodup) (p : Req → Bool) (f : Req → α) (key : α → Nat) (hf : ∀ r, key (f r) = r.rid) {r : Req}
    (hr : r ∈ L) : ((L.filter p).map f).filter (fun m => key m = r.rid) = if p r then [f r] else [] := by
  induction L with
  | nil => cases hr
  | cons q L ih =>
    rw [rids, List.map_cons, List.nodup_cons] at hn
    rcases List.mem_cons.1 hr with rfl | hr
    · have h0 := pick_none (α := α) p f key hf hn.1
      by_cases hp : p r = true
      · rw [List.filter_cons_of_pos hp, List.map_cons, List.filter_cons_of_pos (by simp [hf]), h0, if_pos hp]
      · rw [List.filter_cons_of_neg hp, h0, if_neg hp]
    · have hne : q.rid ≠ r.rid := fun he => hn.1 (he ▸ mem_rids hr)
      have h0 := ih hn.2 hr
      by_cases hp : p q = true
      · rw [List.filter_cons_of_pos hp, List.map_cons, List.filter_cons_of_neg (by simpa [hf] using hne), h0]
      · rw [List.filter_cons_of_neg hp, h0]

/-- The state after an iteration with the batch `B`, next to the running requests `old`. -/
def St.after (s : St) (old B rem : List Req) (ext : Bool) (o : Oracle) (u : Int) : St :=
  let b := absorb ext o B u
  let x := route b.1 b.2
  let e := emit (old ++ x.1)
  { s with waiting := [], pending := rem, running := e.2, used := x.2.2, sent := s.sent ++ e.1 ++ x.2.1
           gen := s.gen ++ B.map (fun r => (r.rid, (o r.rid).1)) }

theorem iter_after (c : Cfg) (s : St) (o : Oracle) : s.iter c o =
    let p := purge s.running s.used
    let a := admit c p.1.length p.2 c.maxPrefill (s.pending ++ s.waiting.map (Raw.toReq c))
    if a.1 ≠ [] then s.after p.1 a.1 a.2.1 true o a.2.2 else s.after [] p.1 a.2.1 false o a.2.2 := by
  rw [St.iter]
  dsimp only
  split
  · rfl
  · rw [St.after]
    split
    · rfl
    · rename_i _ hp
      rw [not_not] at hp
      simp [hp, absorb, route, emit]

/-- The requests that go on, and those that end. -/
def goOn (ext : Bool) (o : Oracle) (B : List Req) : List Req := (B.map (adv ext o)).filter (fun r => r.reason.isNone)
def ends (ext : Bool) (o : Oracle) (B : List Req) : List Req := (B.map (adv ext o)).filter (fun r => r.reason.isSome)

theorem rids_append (l m : List Req) : rids (l ++ m) = rids l ++ rids m := List.map_append

theorem rids_adv (ext : Bool) (o : Oracle) (B : List Req) : rids (B.map (adv ext o)) = rids B := by
  rw [rids, rids, List.map_map]
  exact List.map_congr_left (fun r _ => adv_rid ext o r)

theorem rids_told (l : List Req) : rids (l.map told) = rids l := by
  rw [rids, rids, List.map_map]
  exact List.map_congr_left (fun r _ => told_rid r)

theorem rids_filter (p : Req → Bool) (l : List Req) : (rids (l.filter p)).Sublist (rids l) := List.Sublist.map _ List.filter_sublist

/-- Open and not aborted. -/
def Alive (s : St) (rid : Nat) : Prop :=
  rid ∈ s.waiting.map Raw.rid ∨ rid ∈ s.pending.map Req.rid ∨ ∃ r ∈ s.running, r.rid = rid ∧ r.reason = none

theorem Alive.open {s : St} {rid : Nat} (h : Alive s rid) : Open s rid := by
  rcases h with h | h | ⟨r, hr, he, _⟩
  · exact Or.inl h
  · exact Or.inr (Or.inl h)
  · exact Or.inr (Or.inr (List.mem_map.2 ⟨r, hr, he⟩))

structure Batch (c : Cfg) (s : St) (old B rem : List Req) (ext : Bool) (o : Oracle) (u : Int) : Prop where
  nodup : (rids old ++ rids B ++ rids rem).Nodup
  oldOk : ∀ r ∈ old, Live (genOf s r.rid) (msgsOf s r.rid) r ∧ r.out ≠ [] ∧ r.reason = none ∧ ∃ w ∈ s.subs, Of c w r
  remOk : ∀ r ∈ rem, genOf s r.rid = [] ∧ msgsOf s r.rid = [] ∧ ∃ w ∈ s.subs, r = w.toReq c
  new : ∀ r ∈ B, Live (genOf s r.rid) (msgsOf s r.rid) r ∧ r.reason = none ∧ (ext = true → (o r.rid).2 ≤ r.inp) ∧
    (∃ w ∈ s.subs, Of c w r) ∧ ∃ w ∈ s.subs, w.rid = r.rid ∧ w.inp ≤ c.maxPrefill ∧ w.inp ≤ c.maxTotal
  cover : ∀ rid, Open s rid → rid ∈ rids old ∨ rid ∈ rids B ∨ rid ∈ rids rem ∨
    (rid ∈ s.gone ∧ (∀ m ∈ msgsOf s rid, m.reason = none) ∧ said (msgsOf s rid) <+: genOf s rid)
  isOpen : ∀ rid, rid ∈ rids old ∨ rid ∈ rids B ∨ rid ∈ rids rem → Alive s rid
  usedOk : u = charges old + charges B
  count : old.length + B.length ≤ c.maxRun
  prompt : prompts old + prompts B ≤ c.maxTotal

section
variable {c : Cfg} {s : St} {old B rem : List Req} {ext : Bool} {o : Oracle} {u : Int}

theorem after_running (h : Batch c s old B rem ext o u) : (s.after old B rem ext o u).running = (old ++ goOn ext o B).map told := by
  rw [St.after]
  dsimp only
  rw [emit_snd, route_fst, absorb_fst, goOn]

theorem after_sent (h : Batch c s old B rem ext o u) : (s.after old B rem ext o u).sent =
    s.sent ++ ((old ++ goOn ext o B).filter (fun r => r.due)).map Req.chunk ++ ((ends ext o B).filter (fun _ => true)).map Req.final := by
  rw [St.after]
  dsimp only
  rw [emit_fst, route_msgs, route_fst, absorb_fst, goOn, ends, List.filter_eq_self.2 (fun _ _ => rfl)]

theorem live_pre {G : List Int} {M : List Msg} {r : Req} (h : Live G M r) : r.pre ≤ r.seq := by
  rw [h.seq]; exact h.pre.trans (Nat.le_add_right _ _)

theorem adv_pre_le {G : List Int} {M : List Msg} {r : Req} (h : Live G M r) (ho : ext = true → (o r.rid).2 ≤ r.inp) :
    (adv ext o r).pre ≤ r.inp := by
  rw [adv_pre]
  have := h.pre
  cases ext
  · simpa using this
  · have := ho rfl
    simp only [if_true]; omega

theorem after_used (h : Batch c s old B rem ext o u) : (s.after old B rem ext o u).used = charges (s.after old B rem ext o u).running := by
  rw [after_running h, charges_told, charges_append, goOn, St.after]
  dsimp only
  have h0 : 0 ≤ charges old := charges_nonneg (fun r hr => live_pre (h.oldOk r hr).1)
  have h1 : (absorb ext o B u).2 = charges (B.map (adv ext o)) + charges old := by
    rw [h.usedOk, add_comm (charges old)]
    refine absorb_snd ext o (fun r hr => ?_) h0
    obtain ⟨a1, a2, a3, _⟩ := h.new r hr
    refine ⟨live_pre a1, fun he => (a3 he).trans ?_⟩
    rw [a1.seq]; exact Nat.le_add_right _ _
  rw [h1, absorb_fst, route_used _ h0, add_comm]
  intro r hr
  obtain ⟨q, hq, rfl⟩ := List.mem_map.1 hr
  obtain ⟨a1, a2, a3, _⟩ := h.new q hq
  rw [adv_seq, a1.seq]
  have := adv_pre_le a1 a3
  omega

theorem genOf_after (rid : Nat) : genOf (s.after old B rem ext o u) rid =
    genOf s rid ++ (((B.filter (fun _ => true)).map (fun r => (r.rid, (o r.rid).1))).filter (fun p => p.1 = rid)).map (·.2) := by
  rw [genOf, St.after]
  dsimp only
  rw [List.filter_append, List.map_append, genOf, List.filter_eq_self.2 (fun _ _ => rfl)]

theorem genOf_in (h : Batch c s old B rem ext o u) {r : Req} (hr : r ∈ B) : genOf (s.after old B rem ext o u) r.rid = genOf s r.rid ++ [(o r.rid).1] := by
  have hn : (rids B).Nodup := (List.nodup_append.1 (List.nodup_append.1 h.nodup).1).2.1
  have := pick hn (fun _ => true) (fun r => (r.rid, (o r.rid).1)) Prod.fst (fun _ => rfl) hr
  rw [genOf_after, this, if_pos rfl]
  rfl

theorem genOf_out {rid : Nat} (hr : rid ∉ rids B) : genOf (s.after old B rem ext o u) rid = genOf s rid := by
  have := pick_none (α := Nat × Int) (fun _ => true) (fun r => (r.rid, (o r.rid).1)) Prod.fst (fun _ => rfl) hr
  rw [genOf_after, this, List.map_nil, List.append_nil]

theorem msgsOf_after (h : Batch c s old B rem ext o u) (rid : Nat) : msgsOf (s.after old B rem ext o u) rid =
    msgsOf s rid ++ (((old ++ goOn ext o B).filter (fun r => r.due)).map Req.chunk).filter (fun m => m.rid = rid) ++
      (((ends ext o B).filter (fun _ => true)).map Req.final).filter (fun m => m.rid = rid) := by
  rw [msgsOf, after_sent h, List.filter_append, List.filter_append, msgsOf]

theorem rids_goOn : (rids (goOn ext o B)).Sublist (rids B) := by
  have := rids_filter (fun r => r.reason.isNone) (B.map (adv ext o))
  rw [rids_adv] at this
  exact this

theorem rids_ends : (rids (ends ext o B)).Sublist (rids B) := by
  have := rids_filter (fun r => r.reason.isSome) (B.map (adv ext o))
  rw [rids_adv] at this
  exact this

theorem split_filter (hn : (rids B).Nodup) {p p' : Req → Bool} (hp : ∀ r, p r = true → p' r = false) {rid : Nat}
    (h1 : rid ∈ rids (B.filter p)) (h2 : rid ∈ rids (B.filter p')) : False := by
  obtain ⟨a, ha, e1⟩ := List.mem_map.1 h1
  obtain ⟨b, hb, e2⟩ := List.mem_map.1 h2
  obtain ⟨ha1, ha2⟩ := List.mem_filter.1 ha
  obtain ⟨hb1, hb2⟩ := List.mem_filter.1 hb
  have : a = b := List.inj_on_of_nodup_map hn ha1 hb1 (e1.trans e2.symm)
  subst this
  rw [hp a ha2] at hb2
  cases hb2

theorem goOn_ends (hn : (rids B).Nodup) {rid : Nat} (h1 : rid ∈ rids (goOn ext o B)) (h2 : rid ∈ rids (ends ext o B)) : False := by
  have hn' : (rids (B.map (adv ext o))).Nodup := by rw [rids_adv]; exact hn
  exact split_filter hn' (fun r hr => by cases h : r.reason <;> simp_all) h1 h2

theorem nodup_go (h : Batch c s old B rem ext o u) : (rids (old ++ goOn ext o B)).Nodup := by
  rw [rids_append]
  refine (List.nodup_append.1 h.nodup).1.sublist ((List.Sublist.refl _).append rids_goOn)

theorem nodup_B (h : Batch c s old B rem ext o u) : (rids B).Nodup := (List.nodup_append.1 (List.nodup_append.1 h.nodup).1).2.1

theorem nodup_ends (h : Batch c s old B rem ext o u) : (rids (ends ext o B)).Nodup := (nodup_B h).sublist rids_ends

theorem old_notin (h : Batch c s old B rem ext o u) {rid : Nat} (h1 : rid ∈ rids old) : rid ∉ rids B :=
  fun h2 => (List.nodup_append.1 (List.nodup_append.1 h.nodup).1).2.2 _ h1 _ h2 rfl

theorem rem_notin (h : Batch c s old B rem ext o u) {rid : Nat} (h1 : rid ∈ rids rem) : rid ∉ rids old ∧ rid ∉ rids B := by
  have := (List.nodup_append.1 h.nodup).2.2
  exact ⟨fun h2 => this _ (List.mem_append_left _ h2) _ h1 rfl, fun h2 => this _ (List.mem_append_right _ h2) _ h1 rfl⟩

/-- Messages of a request that goes on. -/
theorem msgsOf_go (h : Batch c s old B rem ext o u) {r : Req} (hr : r ∈ old ++ goOn ext o B) :
    msgsOf (s.after old B rem ext o u) r.rid = msgsOf s r.rid ++ if r.due then [r.chunk] else [] := by
  have hne : r.rid ∉ rids (ends ext o B) := by
    intro hm
    rcases List.mem_append.1 hr with hr | hr
    · exact old_notin h (mem_rids hr) (rids_ends.subset hm)
    · exact goOn_ends (nodup_B h) (mem_rids hr) hm
  have h1 := pick (nodup_go h) (fun r => r.due) Req.chunk Msg.rid (fun _ => rfl) hr
  have h2 := pick_none (α := Msg) (fun _ => true) Req.final Msg.rid (fun _ => rfl) hne
  rw [msgsOf_after h, h1, h2, List.append_nil]
  simp

theorem msgsOf_end (h : Batch c s old B rem ext o u) {r : Req} (hr : r ∈ ends ext o B) :
    msgsOf (s.after old B rem ext o u) r.rid = msgsOf s r.rid ++ [r.final] := by
  have hne : r.rid ∉ rids (old ++ goOn ext o B) := by
    intro hm
    rw [rids_append] at hm
    rcases List.mem_append.1 hm with hm | hm
    · exact old_notin h hm (rids_ends.subset (mem_rids hr))
    · exact goOn_ends (nodup_B h) hm (mem_rids hr)
  have h1 := pick_none (α := Msg) (fun r => r.due) Req.chunk Msg.rid (fun _ => rfl) hne
  have h2 := pick (nodup_ends h) (fun _ => true) Req.final Msg.rid (fun _ => rfl) hr
  rw [msgsOf_after h, h1, h2, List.append_nil, if_pos rfl]

theorem msgsOf_out (h : Batch c s old B rem ext o u) {rid : Nat} (h1 : rid ∉ rids old) (h2 : rid ∉ rids B) :
    msgsOf (s.after old B rem ext o u) rid = msgsOf s rid := by
  have hn1 : rid ∉ rids (old ++ goOn ext o B) := by
    intro hm
    rw [rids_append] at hm
    rcases List.mem_append.1 hm with hm | hm
    · exact h1 hm
    · exact h2 (rids_goOn.subset hm)
  have hn2 : rid ∉ rids (ends ext o B) := fun hm => h2 (rids_ends.subset hm)
  rw [msgsOf_after h, pick_none (α := Msg) (fun r => r.due) Req.chunk Msg.rid (fun _ => rfl) hn1,
    pick_none (α := Msg) (fun _ => true) Req.final Msg.rid (fun _ => rfl) hn2, List.append_nil, List.append_nil]

/-- Streaming keeps the bookkeeping of a request. -/
theorem live_told {G : List Int} {M : List Msg} {r : Req} (h : Live G M r) : Live G (M ++ if r.due then [r.chunk] else []) (told r) := by
  refine ⟨by simpa using h.seq, by simpa using h.pre, by simpa using h.out, by simpa using h.nostop, by simpa using h.lt, ?_, ?_, ?_, by simpa using h.reason⟩
  · rw [told_out]
    by_cases hd : r.due
    · rw [if_pos hd, told, if_pos hd]
      have : said (M ++ [r.chunk]) = said M ++ r.out.drop r.off := by simp [said, Req.chunk]
      rw [this, h.said, List.take_append_drop, List.take_length]
    · rw [if_neg hd, told, if_neg hd, List.append_nil]
      exact h.said
  · rw [told_out]
    unfold told
    split
    · exact le_refl _
    · exact h.off
  · intro m hm
    rcases List.mem_append.1 hm with hm | hm
    · exact h.open_ m hm
    · split at hm
      · rw [List.mem_singleton.1 hm]; rfl
      · cases hm

/-- A new token keeps the bookkeeping of a request, if it does not end it. -/
theorem live_adv {G : List Int} {M : List Msg} {r : Req} (h : Live G M r) (hr : r.reason = none) (ho : ext = true → (o r.rid).2 ≤ r.inp)
    (hn : (adv ext o r).reason = none) : Live (G ++ [(o r.rid).1]) M (adv ext o r) := by
  have hreason := adv_reason ext o r hr
  rw [hn] at hreason
  have h1 : (o r.rid).1 ∉ r.stop := by
    intro hm; rw [if_pos hm] at hreason; cases hreason
  rw [if_neg h1] at hreason
  have h2 : ¬ r.maxNew ≤ r.out.length + 1 := by
    intro hm; rw [if_pos hm] at hreason; cases hreason
  refine ⟨?_, ?_, ?_, ?_, ?_, ?_, ?_, h.open_, Or.inl hn⟩
  · rw [adv_seq, adv_inp, adv_out, h.seq, List.length_append, List.length_singleton]; rfl
  · rw [adv_inp]; exact adv_pre_le h ho
  · rw [adv_out, h.out]
  · intro t ht
    rw [adv_out] at ht
    rw [adv_stop]
    rcases List.mem_append.1 ht with ht | ht
    · exact h.nostop t ht
    · rw [List.mem_singleton.1 ht]; exact h1
  · right
    rw [adv_out, adv_maxNew, List.length_append, List.length_singleton]
    push_cast
    omega
  · rw [h.said, adv_out, adv_off, List.take_append_of_le_length h.off]
  · rw [adv_out, adv_off, List.length_append]
    exact h.off.trans (Nat.le_add_right _ _)

/-- A token that ends the answer makes it complete. -/
theorem complete_adv {G : List Int} {M : List Msg} {r : Req} {w : Raw} (h : Live G M r) (hw : Of c w r) (hr : r.reason = none)
    (hn : (adv ext o r).reason ≠ none) : Complete c w (G ++ [(o r.rid).1]) (adv ext o r).reason := by
  have hs : ∀ t, t ∈ r.stop ↔ w.stops c t := fun t => by rw [hw.stop, mem_mergeStop]; rfl
  have hreason := adv_reason ext o r hr
  rw [hreason]
  by_cases h1 : (o r.rid).1 ∈ r.stop
  · rw [if_pos h1]
    refine ⟨G, _, rfl, (hs _).1 h1, ?_, ?_⟩
    · intro t ht hst
      exact h.nostop t (h.out ▸ ht) ((hs t).2 hst)
    · rw [← h.out, ← hw.maxNew]; exact h.lt
  · rw [if_neg h1] at hreason ⊢
    by_cases h2 : r.maxNew ≤ r.out.length + 1
    · rw [if_pos h2]
      refine ⟨?_, ?_⟩
      · intro t ht
        rcases List.mem_append.1 ht with ht | ht
        · exact fun hst => h.nostop t (h.out ▸ ht) ((hs t).2 hst)
        · rw [List.mem_singleton.1 ht, ← hs]; exact h1
      · rw [List.length_append, List.length_singleton, ← h.out, ← hw.maxNew]
        push_cast
        rcases h.lt with he | hlt
        · rw [he] at h2 ⊢
          simp only [List.length_nil, Nat.cast_zero, zero_add] at h2 ⊢
          omega
        · omega
    · rw [if_neg h2] at hreason
      exact absurd hreason hn

theorem answered_adv {G : List Int} {M : List Msg} {r : Req} {w : Raw} (h : Live G M r) (hw : Of c w r) (hr : r.reason = none)
    (hn : (adv ext o r).reason ≠ none) : Answered c w (G ++ [(o r.rid).1]) (M ++ [(adv ext o r).final]) := by
  refine ⟨M, _, rfl, h.open_, complete_adv h hw hr hn, ?_, ?_⟩
  · rw [Req.final, adv_out, h.out]
  · have : said (M ++ [(adv ext o r).final]) = said M ++ (adv ext o r).out.drop r.off := by simp [said, Req.final]
    rw [this, h.said, adv_out, ← h.out]
    conv_rhs => rw [← List.take_append_drop r.off (r.out ++ [(o r.rid).1])]
    rw [List.take_append_of_le_length h.off]

theorem prompts_le {l m : List Req} (h : List.Forall₂ (fun a b => prompt a ≤ prompt b) l m) : prompts l ≤ prompts m := by
  induction h with
  | nil => exact le_refl _
  | cons hab _ ih =>
    simp only [prompts, List.map_cons, List.sum_cons] at ih ⊢
    omega

theorem prompts_append (l m : List Req) : prompts (l ++ m) = prompts l + prompts m := by simp [prompts]

theorem prompts_sublist {l m : List Req} (h : l.Sublist m) (hp : ∀ r ∈ m, 0 ≤ prompt r) : prompts l ≤ prompts m := by
  induction h with
  | slnil => exact le_refl _
  | cons a _ ih =>
    have := ih (fun r hr => hp r (List.mem_cons_of_mem _ hr))
    have := hp a List.mem_cons_self
    simp only [prompts, List.map_cons, List.sum_cons] at *
    omega
  | cons_cons a _ ih =>
    have := ih (fun r hr => hp r (List.mem_cons_of_mem _ hr))
    simp only [prompts, List.map_cons, List.sum_cons] at *
    omega

theorem mem_goOn {r : Req} : r ∈ goOn ext o B ↔ ∃ q ∈ B, r = adv ext o q ∧ r.reason = none := by
  rw [goOn, List.mem_filter, List.mem_map]
  constructor
  · rintro ⟨⟨q, hq, rfl⟩, h⟩
    exact ⟨q, hq, rfl, by cases h' : (adv ext o q).reason <;> simp_all⟩
  · rintro ⟨q, hq, rfl, h⟩
    exact ⟨⟨q, hq, rfl⟩, by rw [h]; rfl⟩

theorem mem_ends {r : Req} : r ∈ ends ext o B ↔ ∃ q ∈ B, r = adv ext o q ∧ r.reason ≠ none := by
  rw [ends, List.mem_filter, List.mem_map]
  constructor
  · rintro ⟨⟨q, hq, rfl⟩, h⟩
    exact ⟨q, hq, rfl, by cases h' : (adv ext o q).reason <;> simp_all⟩
  · rintro ⟨q, hq, rfl, h⟩
    exact ⟨⟨q, hq, rfl⟩, by cases h' : (adv ext o q).reason <;> simp_all⟩

theorem genOf_mono (rid : Nat) : genOf s rid <+: genOf (s.after old B rem ext o u) rid := by
  rw [genOf_after]; exact List.prefix_append _ _

theorem chain_snoc {M : List Msg} {z : Msg} (h : ∀ pre m post, M = pre ++ m :: post → said (pre ++ [m]) = m.outputIds)
    (hz : said (M ++ [z]) = z.outputIds) {pre post : List Msg} {m : Msg} (hm : M ++ [z] = pre ++ m :: post) : said (pre ++ [m]) = m.outputIds := by
  rcases List.eq_nil_or_concat post with rfl | ⟨post', y, rfl⟩
  · obtain ⟨rfl, h2⟩ := List.append_inj' (show M ++ [z] = pre ++ [m] from hm) rfl
    cases h2
    exact hz
  · have hm' : M ++ [z] = (pre ++ m :: post') ++ [y] := by rw [hm]; simp
    obtain ⟨h1, _⟩ := List.append_inj' hm' rfl
    exact h pre m post' h1

theorem inv_after (hi : Inv c s) (h : Batch c s old B rem ext o u) : Inv c (s.after old B rem ext o u) := by
  have hrun : ∀ r ∈ old ++ goOn ext o B, Live (genOf (s.after old B rem ext o u) r.rid) (msgsOf s r.rid) r ∧ r.out ≠ [] ∧
      r.reason = none ∧ ∃ w ∈ s.subs, Of c w r := by
    intro r hr
    rcases List.mem_append.1 hr with hr | hr
    · obtain ⟨a1, a2, a3, a4⟩ := h.oldOk r hr
      rw [genOf_out (old_notin h (mem_rids hr))]
      exact ⟨a1, a2, a3, a4⟩
    · obtain ⟨q, hq, rfl, hn⟩ := mem_goOn.1 hr
      obtain ⟨a1, a2, a3, ⟨w, hw, a4⟩, _⟩ := h.new q hq
      rw [adv_rid, genOf_in h hq]
      exact ⟨live_adv a1 a2 a3 hn, by rw [adv_out]; simp, hn, w, hw, by simpa using a4.rid, by simpa using a4.inp, by simpa using a4.maxNew, by simpa using a4.stop⟩
  have hp0 : ∀ r ∈ old ++ B.map (adv ext o), 0 ≤ prompt r := by
    intro r hr
    rcases List.mem_append.1 hr with hr | hr
    · have := (h.oldOk r hr).1.pre
      rw [prompt]; omega
    · obtain ⟨q, hq, rfl⟩ := List.mem_map.1 hr
      obtain ⟨a1, a2, a3, _⟩ := h.new q hq
      have := adv_pre_le a1 a3
      rw [prompt, adv_inp]; omega
  refine ⟨hi.subs, ?_, ?_, ?_, ?_, ?_, ?_, ?_, ?_, ?_, ?_, after_used h, ?_, ?_⟩
  · rw [after_running h, rids_told, rids_append]
    change (([] : List Nat) ++ rids rem ++ (rids old ++ rids (goOn ext o B))).Nodup
    rw [List.nil_append]
    refine List.Nodup.sublist (l₂ := rids rem ++ (rids old ++ rids B)) ?_ ?_
    · exact (List.Sublist.refl _).append ((List.Sublist.refl _).append rids_goOn)
    · exact (List.perm_append_comm.nodup_iff).1 h.nodup
  · intro w hw; cases hw
  · intro r hr
    obtain ⟨n1, n2⟩ := rem_notin h (mem_rids hr)
    rw [genOf_out n2, msgsOf_out h n1 n2]
    exact h.remOk r hr
  · intro r hr
    rw [after_running h] at hr
    obtain ⟨q, hq, rfl⟩ := List.mem_map.1 hr
    obtain ⟨a1, a2, a3, w, hw, a4⟩ := hrun q hq
    rw [told_rid, msgsOf_go h hq]
    refine ⟨live_told a1, by rw [told_out]; exact a2, ?_, w, hw, by simpa using a4.rid, by simpa using a4.inp, by simpa using a4.maxNew, by simpa using a4.stop⟩
    rw [told_reason, a3]
    intro hh; cases hh
  · intro w hw hno
    have hno' : w.rid ∉ rids rem ∧ w.rid ∉ rids (old ++ goOn ext o B) := by
      constructor
      · intro hm; exact hno (Or.inr (Or.inl hm))
      · intro hm
        refine hno (Or.inr (Or.inr ?_))
        change _ ∈ rids (s.after old B rem ext o u).running
        rw [after_running h, rids_told]
        exact hm
    have hold : w.rid ∉ rids old := fun hm => hno'.2 (by rw [rids_append]; exact List.mem_append_left _ hm)
    by_cases hB : w.rid ∈ rids B
    · left
      obtain ⟨q, hq, he⟩ := List.mem_map.1 hB
      obtain ⟨a1, a2, a3, ⟨w', hw', a4⟩, _⟩ := h.new q hq
      have : w' = w := List.inj_on_of_nodup_map hi.subs hw' hw (a4.rid.symm.trans he)
      subst this
      have hn : (adv ext o q).reason ≠ none := by
        intro hn
        refine hno'.2 ?_
        rw [rids_append]
        refine List.mem_append_right _ ?_
        have := mem_rids (mem_goOn.2 ⟨q, hq, rfl, hn⟩)
        rw [adv_rid, he] at this
        exact this
      have hm := msgsOf_end h (mem_ends.2 ⟨q, hq, rfl, hn⟩)
      rw [adv_rid] at hm
      rw [← he, genOf_in h hq, hm]
      exact answered_adv a1 a4 a2 hn
    · rw [genOf_out hB, msgsOf_out h hold hB]
      by_cases ho : Open s w.rid
      · rcases h.cover _ ho with hc | hc | hc | hc
        · exact absurd hc hold
        · exact absurd hc hB
        · exact absurd hc hno'.1
        · exact Or.inr hc
      · exact hi.closed w hw ho
  · intro m hm
    rw [after_sent h] at hm
    rcases List.mem_append.1 hm with hm | hm
    · rcases List.mem_append.1 hm with hm | hm
      · obtain ⟨a1, a2⟩ := hi.msgs m hm
        exact ⟨a1.trans (genOf_mono _), a2⟩
      · obtain ⟨r, hr, rfl⟩ := List.mem_map.1 hm
        obtain ⟨a1, a2, _⟩ := hrun r (List.mem_filter.1 hr).1
        refine ⟨?_, rfl, a2⟩
        change r.out <+: genOf _ r.rid
        rw [← a1.out]
    · obtain ⟨r, hr, rfl⟩ := List.mem_map.1 hm
      obtain ⟨q, hq, rfl, _⟩ := mem_ends.1 (List.mem_filter.1 hr).1
      refine ⟨?_, rfl, by rw [Req.final, adv_out]; simp⟩
      change (adv ext o q).out <+: genOf _ (adv ext o q).rid
      rw [adv_rid, genOf_in h hq, adv_out, (h.new q hq).1.out]
  · intro rid hr
    have hno : ¬ (rid ∈ rids old ∨ rid ∈ rids B) := by
      rintro (hm | hm)
      · obtain ⟨q, hq, rfl⟩ := List.mem_map.1 hm
        obtain ⟨_, _, _, w, hw, a4⟩ := h.oldOk q hq
        exact hr (a4.rid ▸ List.mem_map_of_mem hw)
      · obtain ⟨q, hq, rfl⟩ := List.mem_map.1 hm
        obtain ⟨_, _, _, ⟨w, hw, a4⟩, _⟩ := h.new q hq
        exact hr (a4.rid ▸ List.mem_map_of_mem hw)
    rw [not_or] at hno
    rw [genOf_out hno.2, msgsOf_out h hno.1 hno.2]
    exact hi.unknown rid hr
  · intro p hp
    rcases List.mem_append.1 hp with hp | hp
    · exact hi.small p hp
    · obtain ⟨q, hq, rfl⟩ := List.mem_map.1 hp
      exact (h.new q hq).2.2.2.2
  · intro w hw
    by_cases hB : w.rid ∈ rids B
    · obtain ⟨q, hq, he⟩ := List.mem_map.1 hB
      obtain ⟨a1, a2, a3, ⟨w', hw', a4⟩, _⟩ := h.new q hq
      have : w' = w := List.inj_on_of_nodup_map hi.subs hw' hw (a4.rid.symm.trans he)
      subst this
      rw [← he, genOf_in h hq, ← a1.out, ← a4.maxNew, List.length_append, List.length_singleton]
      push_cast
      rcases a1.lt with h0 | h0
      · rw [h0]; simp only [List.length_nil, Nat.cast_zero]; omega
      · omega
    · rw [genOf_out hB]; exact hi.lim w hw
  · intro rid pre m post hm
    by_cases h1 : rid ∈ rids (old ++ goOn ext o B)
    · obtain ⟨r, hr, rfl⟩ := List.mem_map.1 h1
      rw [msgsOf_go h hr] at hm
      split at hm
      · refine chain_snoc (hi.chain r.rid) ?_ hm
        obtain ⟨a1, _⟩ := hrun r hr
        have : said (msgsOf s r.rid ++ [r.chunk]) = said (msgsOf s r.rid) ++ r.out.drop r.off := by simp [said, Req.chunk]
        rw [this, a1.said, List.take_append_drop]
        rfl
      · rw [List.append_nil] at hm
        exact hi.chain _ _ _ _ hm
    · by_cases h2 : rid ∈ rids (ends ext o B)
      · obtain ⟨r, hr, rfl⟩ := List.mem_map.1 h2
        rw [msgsOf_end h hr] at hm
        refine chain_snoc (hi.chain r.rid) ?_ hm
        obtain ⟨q, hq, rfl, _⟩ := mem_ends.1 hr
        obtain ⟨a1, _⟩ := h.new q hq
        have : said (msgsOf s (adv ext o q).rid ++ [(adv ext o q).final]) = said (msgsOf s (adv ext o q).rid) ++ (adv ext o q).out.drop q.off := by simp [said, Req.final]
        rw [this, adv_rid, a1.said, adv_out, Req.final, adv_out]
        conv_rhs => rw [← List.take_append_drop q.off (q.out ++ [(o q.rid).1])]
        rw [List.take_append_of_le_length a1.off]
      · have h3 := msgsOf_after h rid
        rw [pick_none (α := Msg) (fun r => r.due) Req.chunk Msg.rid (fun _ => rfl) h1,
          pick_none (α := Msg) (fun _ => true) Req.final Msg.rid (fun _ => rfl) h2, List.append_nil, List.append_nil] at h3
        rw [h3] at hm
        exact hi.chain _ _ _ _ hm
  · rw [after_running h, List.length_map, List.length_append]
    have : (goOn ext o B).length ≤ (B.map (adv ext o)).length := List.length_filter_le _ _
    rw [List.length_map] at this
    have := h.count
    omega
  · rw [after_running h]
    have e : prompts ((old ++ goOn ext o B).map told) = prompts (old ++ goOn ext o B) := by
      simp only [prompts, List.map_map]
      congr 1
      refine List.map_congr_left (fun r _ => ?_)
      simp [prompt]
    rw [e]
    have h1 : prompts (old ++ goOn ext o B) ≤ prompts (old ++ B.map (adv ext o)) :=
      prompts_sublist ((List.Sublist.refl _).append List.filter_sublist) hp0
    have h2 : prompts (B.map (adv ext o)) ≤ prompts B := by
      have key : ∀ r : Req, prompt (adv ext o r) ≤ prompt r := by
        intro r
        rw [prompt, prompt, adv_inp, adv_pre]
        cases ext
        · simp
        · simp only [if_true]; omega
      clear * - key
      induction B with
      | nil => exact le_refl _
      | cons r B ih =>
        have := key r
        simp only [prompts, List.map_cons, List.sum_cons] at ih ⊢
        omega
    have := h.prompt
    rw [prompts_append] at h1
    rw [prompts_append] at h1
    rw [prompts_append]
    omega

end

def wsum (l : List Req) : Nat := (l.map Req.left).sum

theorem wsum_perm {l m : List Req} (h : l.Perm m) : wsum l = wsum m := (h.map Req.left).sum_eq

theorem wsum_append (l m : List Req) : wsum (l ++ m) = wsum l + wsum m := by simp [wsum]

theorem wsum_sublist {l m : List Req} (h : l.Sublist m) : wsum l ≤ wsum m := by
  induction h with
  | slnil => exact le_refl _
  | cons a _ ih => simp only [wsum, List.map_cons, List.sum_cons] at *; omega
  | cons_cons a _ ih => simp only [wsum, List.map_cons, List.sum_cons] at *; omega

theorem iter_batch {c : Cfg} {s : St} (hi : Inv c s) {o : Oracle} (ho : ∀ q ∈ s.subs, (o q.rid).2 ≤ q.inp) :
    ∃ old B rem ext u, s.iter c o = s.after old B rem ext o u ∧ Batch c s old B rem ext o u ∧
      wsum old + wsum B + wsum (rem.filter (fun r => Fits c r.inp)) ≤ work c s ∧
      (B = [] → 0 < c.maxRun → old = [] ∧ ∀ r ∈ rem, ¬ Fits c r.inp) := by
  rw [iter_after]
  dsimp only
  have hpre : ∀ r ∈ s.running, r.pre ≤ r.seq := fun r hr => live_pre (hi.run r hr).1
  have hp1 := purge_fst s.running s.used
  have hp2 : (purge s.running s.used).2 = charges (purge s.running s.used).1 := by
    have := purge_snd hpre (v := 0) (le_refl _)
    rw [add_zero, add_zero, ← hi.used] at this
    rw [this, hp1]
  generalize hP : purge s.running s.used = p at hp1 hp2 ⊢
  generalize hL : s.pending ++ s.waiting.map (Raw.toReq c) = L
  generalize hA : admit c p.1.length p.2 c.maxPrefill L = a
  have hsub : p.1.Sublist s.running := by rw [hp1]; exact List.filter_sublist
  have hrun : ∀ r ∈ p.1, Live (genOf s r.rid) (msgsOf s r.rid) r ∧ r.out ≠ [] ∧ r.reason = none ∧ ∃ w ∈ s.subs, Of c w r := by
    intro r hr
    obtain ⟨a1, a2, _, a4⟩ := hi.run r (hsub.subset hr)
    refine ⟨a1, a2, ?_, a4⟩
    rw [hp1] at hr
    have := (List.mem_filter.1 hr).2
    cases h : r.reason <;> simp_all
  have hLp : ∀ r ∈ L, genOf s r.rid = [] ∧ msgsOf s r.rid = [] ∧ ∃ w ∈ s.subs, r = w.toReq c := by
    intro r hr
    rw [← hL] at hr
    rcases List.mem_append.1 hr with hr | hr
    · exact hi.pend r hr
    · obtain ⟨w, hw, rfl⟩ := List.mem_map.1 hr
      obtain ⟨a1, a2, a3⟩ := hi.wait w hw
      exact ⟨a2, a3, w, a1, rfl⟩
  have hperm : (a.1 ++ a.2.1).Perm L := by rw [← hA]; exact admit_perm c L _ _ _
  have hridsL : rids L = rids s.pending ++ s.waiting.map Raw.rid := by
    rw [← hL, rids_append]
    congr 1
    rw [rids, List.map_map]
    rfl
  have hperm' : (rids a.1 ++ rids a.2.1).Perm (rids s.pending ++ s.waiting.map Raw.rid) := by
    rw [← hridsL, ← rids_append]; exact hperm.map _
  have hnd : (rids p.1 ++ rids a.1 ++ rids a.2.1).Nodup := by
    have h1 : (rids p.1 ++ rids a.1 ++ rids a.2.1).Perm (rids s.pending ++ s.waiting.map Raw.rid ++ rids p.1) := by
      rw [List.append_assoc]
      exact List.perm_append_comm.trans (hperm'.append_right _)
    rw [h1.nodup_iff]
    have h2 : (s.waiting.map Raw.rid ++ rids s.pending ++ rids p.1).Nodup :=
      hi.nodup.sublist ((List.Sublist.refl _).append (List.Sublist.map _ hsub))
    exact ((List.perm_append_comm.append_right _).nodup_iff).1 h2
  have hLmem : ∀ rid, rid ∈ rids L → rid ∈ rids a.1 ∨ rid ∈ rids a.2.1 := by
    intro rid hr
    rw [hridsL] at hr
    exact List.mem_append.1 (hperm'.mem_iff.2 hr)
  have hcover : ∀ rid, Open s rid → rid ∈ rids p.1 ∨ rid ∈ rids a.1 ∨ rid ∈ rids a.2.1 ∨
      (rid ∈ s.gone ∧ (∀ m ∈ msgsOf s rid, m.reason = none) ∧ said (msgsOf s rid) <+: genOf s rid) := by
    rintro rid (h1 | h1 | h1)
    · rcases hLmem rid (by rw [hridsL]; exact List.mem_append_right _ h1) with h | h
      · exact Or.inr (Or.inl h)
      · exact Or.inr (Or.inr (Or.inl h))
    · rcases hLmem rid (by rw [hridsL]; exact List.mem_append_left _ h1) with h | h
      · exact Or.inr (Or.inl h)
      · exact Or.inr (Or.inr (Or.inl h))
    · obtain ⟨r, hr, rfl⟩ := List.mem_map.1 h1
      obtain ⟨a1, a2, a3, _⟩ := hi.run r hr
      rcases a1.reason with hn | hn
      · left
        refine mem_rids ?_
        rw [hp1, List.mem_filter]
        exact ⟨hr, by rw [hn]; rfl⟩
      · refine Or.inr (Or.inr (Or.inr ⟨a3 hn, a1.open_, ?_⟩))
        rw [a1.said, ← a1.out]
        exact List.take_prefix _ _
  have hopen : ∀ rid, rid ∈ rids p.1 ∨ rid ∈ rids a.1 ∨ rid ∈ rids a.2.1 → Alive s rid := by
    have hL' : ∀ rid, rid ∈ rids a.1 ∨ rid ∈ rids a.2.1 → Alive s rid := by
      intro rid hr
      rcases List.mem_append.1 (hperm'.mem_iff.1 (List.mem_append.2 hr)) with h | h
      · exact Or.inr (Or.inl h)
      · exact Or.inl h
    rintro rid (h | h | h)
    · obtain ⟨r, hr, he⟩ := List.mem_map.1 h
      exact Or.inr (Or.inr ⟨r, hsub.subset hr, he, (hrun r hr).2.2.1⟩)
    · exact hL' rid (Or.inl h)
    · exact hL' rid (Or.inr h)
  have hrem : ∀ r ∈ a.2.1, genOf s r.rid = [] ∧ msgsOf s r.rid = [] ∧ ∃ w ∈ s.subs, r = w.toReq c :=
    fun r hr => hLp r (hperm.mem_iff.1 (List.mem_append_right _ hr))
  have hc0 : 0 ≤ charges p.1 := charges_nonneg (fun r hr => live_pre (hrun r hr).1)
  have hused : a.2.2 = charges p.1 + charges a.1 := by
    have h1 := admit_used c L p.1.length p.2 c.maxPrefill
    rw [hA] at h1
    rw [h1, hp2]
    congr 1
    have h2 : ∀ r ∈ a.1, charge r = (r.inp : Int) := by
      intro r hr
      obtain ⟨_, _, w, _, rfl⟩ := hLp r (hperm.mem_iff.1 (List.mem_append_left _ hr))
      simp [charge, Raw.toReq]
    rw [charges, inps, List.map_congr_left h2]
  have hplen : p.1.length ≤ c.maxRun := hsub.length_le.trans hi.count
  have hp0 : ∀ r ∈ s.running, 0 ≤ prompt r := by
    intro r hr
    have := (hi.run r hr).1.pre
    rw [prompt]; omega
  have hwork : wsum p.1 + wsum a.1 + wsum (a.2.1.filter (fun r => Fits c r.inp)) ≤ work c s := by
    have h1 : wsum p.1 ≤ wsum s.running := wsum_sublist hsub
    have h2 : a.1.filter (fun r => decide (Fits c r.inp)) = a.1 := by
      rw [List.filter_eq_self]
      intro r hr
      have hok := admit_ok c L p.1.length p.2 c.maxPrefill (hp2 ▸ hc0) r (by rw [hA]; exact hr)
      exact decide_eq_true hok
    have h3 : wsum a.1 + wsum (a.2.1.filter (fun r => Fits c r.inp)) = wsum (L.filter (fun r => Fits c r.inp)) := by
      rw [← wsum_perm (hperm.filter (fun r => Fits c r.inp)), List.filter_append, wsum_append, h2]
    rw [work, hL]
    change _ ≤ wsum _ + wsum _
    omega
  split
  · rename_i hne
    refine ⟨p.1, a.1, a.2.1, true, a.2.2, rfl, ⟨hnd, hrun, hrem, ?_, hcover, hopen, hused, ?_, ?_⟩, hwork, fun hb => absurd hb hne⟩
    · intro r hr
      have hrL : r ∈ L := hperm.mem_iff.1 (List.mem_append_left _ hr)
      obtain ⟨b1, b2, w, hw, rfl⟩ := hLp r hrL
      rw [b1, b2]
      have hok := admit_ok c L p.1.length p.2 c.maxPrefill (hp2 ▸ hc0) (w.toReq c) (by rw [hA]; exact hr)
      exact ⟨live_toReq c w, rfl, fun _ => ho w hw, ⟨w, hw, of_toReq c w⟩, w, hw, rfl, hok⟩
    · have := admit_count c L p.1.length p.2 c.maxPrefill hplen
      rw [hA] at this
      exact this
    · have h1 := admit_total c L p.1.length p.2 c.maxPrefill (by rw [hA]; exact hne)
      rw [hA, hused] at h1
      have hle : ∀ l : List Req, (∀ r ∈ l, prompt r ≤ charge r) → prompts l ≤ charges l := by
        intro l
        induction l with
        | nil => intro _; exact le_refl _
        | cons r l ih =>
          intro hl
          have h1 := hl r List.mem_cons_self
          have h2 := ih (fun q hq => hl q (List.mem_cons_of_mem _ hq))
          rw [charges_cons]
          simp only [prompts, List.map_cons, List.sum_cons] at h2 ⊢
          omega
      have h2 := hle p.1 (fun r hr => by
        have := (hrun r hr).1.seq
        rw [prompt, charge]; omega)
      have h3 := hle a.1 (fun r hr => by
        obtain ⟨_, _, w, _, rfl⟩ := hLp r (hperm.mem_iff.1 (List.mem_append_left _ hr))
        exact le_refl _)
      omega
  · rename_i hne
    rw [not_not] at hne
    rw [hne] at hnd hcover hopen hused
    refine ⟨[], p.1, a.2.1, false, a.2.2, rfl,
      ⟨by simpa [rids] using hnd, by simp, hrem, ?_, ?_, ?_, by simpa using hused, by simpa using hplen, ?_⟩, ?_, ?_⟩
    · intro r hr
      obtain ⟨b1, b2, b3, b4⟩ := hrun r hr
      refine ⟨b1, b3, by simp, b4, ?_⟩
      have : genOf s r.rid ≠ [] := by rw [← b1.out]; exact b2
      obtain ⟨t, ht⟩ := List.exists_mem_of_ne_nil _ this
      obtain ⟨q, hq, _⟩ := List.mem_map.1 ht
      obtain ⟨hq1, hq2⟩ := List.mem_filter.1 hq
      obtain ⟨w, hw, h1, h2⟩ := hi.small q hq1
      exact ⟨w, hw, h1.trans (by simpa using hq2), h2⟩
    · intro rid h
      rcases hcover rid h with h | h | h
      · exact Or.inr (Or.inl h)
      · simp [rids] at h
      · exact Or.inr (Or.inr h)
    · rintro rid (h | h | h)
      · exact absurd h (by simp [rids])
      · exact hopen rid (Or.inl h)
      · exact hopen rid (Or.inr (Or.inr h))
    · have := prompts_sublist hsub hp0
      have := hi.prompt
      simp only [prompts, List.map_nil, List.sum_nil] at *
      omega
    · rw [hne] at hwork
      simp only [wsum, List.map_nil, List.sum_nil] at hwork ⊢
      omega
    · intro hb hm
      refine ⟨rfl, fun r hr hf => ?_⟩
      rw [hb] at hA hp2
      have := admit_none c L 0 p.2 c.maxPrefill (by rw [List.length_nil] at hA; rw [hA]; exact hne) r (hperm.mem_iff.1 (List.mem_append_right _ hr))
      rw [hp2] at this
      refine this ⟨hm, ?_, hf.1⟩
      have := hf.2
      simp only [charges_nil, zero_add]
      exact_mod_cast this

theorem inv_iter {c : Cfg} {s : St} (hi : Inv c s) {o : Oracle} (ho : ∀ q ∈ s.subs, (o q.rid).2 ≤ q.inp) : Inv c (s.iter c o) := by
  obtain ⟨old, B, rem, ext, u, he, hb, _⟩ := iter_batch hi ho
  rw [he]
  exact inv_after hi hb

theorem inv_reach {c : Cfg} {evs : List Ev} {s : St} (h : Reach c evs s) : Inv c s := by
  induction h with
  | init => exact inv_init c
  | step e _ he ih =>
    cases e with
    | recv r => exact inv_recv ih he
    | abort rid => exact inv_abort ih rid
    | iter o => exact inv_iter ih he

end Verif.Sched
