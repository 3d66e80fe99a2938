import Verif.Deliver.Model
namespace Verif.Deliver
open Verif.Sched

/-! ### C56: incremental text -/

/-- The results for a request. -/
def resOf (rs : List Res) (rid : Nat) : List Res := rs.filter (·.rid = rid)

/-- The text a streaming client has put together. -/
def heard (rs : List Res) : Text := rs.flatMap Res.delta

theorem detok_rid (dec : List Int → Text) (rid : Nat) (ms : List Msg) : ∀ prev, resOf (detok dec prev ms) rid =
    detok dec prev (ms.filter (·.rid = rid)) := by
  induction ms with
  | nil => intro prev; rfl
  | cons m ms ih =>
    intro prev
    rw [detok]
    by_cases hm : m.rid = rid
    · rw [List.filter_cons_of_pos (by simpa using hm), detok, resOf, List.filter_cons_of_pos (p := fun x : Res => decide (x.rid = rid)) (a := (detok1 dec prev m).1) (decide_eq_true hm)]
      exact congrArg _ (ih _)
    · rw [List.filter_cons_of_neg (by simpa using hm), resOf, List.filter_cons_of_neg (p := fun x : Res => decide (x.rid = rid)) (a := (detok1 dec prev m).1) (fun h => hm (of_decide_eq_true h))]
      have h1 := ih (detok1 dec prev m).2
      rw [resOf] at h1
      rw [h1]
      have key : ∀ (l : List Msg) (p p' : Nat → Text), p rid = p' rid → (∀ q ∈ l, q.rid = rid) → detok dec p l = detok dec p' l := by
        intro l
        induction l with
        | nil => intros; rfl
        | cons q l ihl =>
          intro p p' hp hq
          have hqr := hq q List.mem_cons_self
          have e1 : (detok1 dec p q).1 = (detok1 dec p' q).1 := by simp only [detok1, hqr, hp]
          rw [detok, detok, e1]
          refine congrArg _ (ihl _ _ ?_ (fun x hx => hq x (List.mem_cons_of_mem _ hx)))
          simp only [detok1, hqr, if_true]
      refine key _ _ _ ?_ (fun q hq => by simpa using (List.mem_filter.1 hq).2)
      simp only [detok1]
      rw [if_neg (fun h => hm h.symm)]

theorem heard_chain {dec : List Int → Text} (hd : ∀ a b, a <+: b → dec a <+: dec b) {rid : Nat} : ∀ (ms : List Msg) (prev : Nat → Text) (D : List Int),
    (∀ q ∈ ms, q.rid = rid) → (∀ pre m post, ms = pre ++ m :: post → D ++ said (pre ++ [m]) = m.outputIds ∧ (post ≠ [] → m.reason = none)) →
    prev rid = dec D → ∀ z, ms.getLast? = some z → dec D ++ heard (detok dec prev ms) = dec z.outputIds := by
  intro ms
  induction ms with
  | nil => intro _ _ _ _ _ z hz; cases hz
  | cons m ms ih =>
    intro prev D hr hc hp z hz
    have hmr := hr m List.mem_cons_self
    obtain ⟨h1, h2⟩ := hc [] m ms rfl
    have h3 : dec D <+: dec m.outputIds := hd _ _ (by rw [← h1]; exact List.prefix_append _ _)
    have h4 : dec D ++ (detok1 dec prev m).1.delta = dec m.outputIds := by
      obtain ⟨t, ht⟩ := h3
      simp only [detok1, hmr, hp, ← ht]
      simp
    have h5 : dec D ++ heard (detok dec prev (m :: ms)) = dec m.outputIds ++ heard (detok dec (detok1 dec prev m).2 ms) := by
      rw [detok, heard, List.flatMap_cons, ← List.append_assoc, h4, heard]
    rw [h5]
    rcases List.eq_nil_or_concat ms with rfl | ⟨ini, y, rfl⟩
    · rw [List.getLast?_singleton, Option.some.injEq] at hz
      subst hz
      simp [detok, heard]
    · have hne : ini.concat y ≠ [] := by simp
      have hnone := h2 hne
      refine ih _ m.outputIds (fun q hq => hr q (List.mem_cons_of_mem _ hq)) ?_ ?_ z ?_
      · intro pre q post he
        obtain ⟨a1, a2⟩ := hc (m :: pre) q post (by rw [he]; rfl)
        refine ⟨?_, a2⟩
        rw [← a1, ← h1]
        simp [said]
      · simp only [detok1, hmr, if_true, hnone, Option.isSome_none, Bool.false_eq_true, if_false]
      · rw [List.getLast?_cons] at hz
        simpa using hz

/-- C56: the pieces of text a client gets, put together, are the text of its last result, for every request and in every history of the
scheduler, provided that decoding more tokens only appends text. -/
theorem C56_delta_partial {dec : List Int → Text} (hd : ∀ a b, a <+: b → dec a <+: dec b) (h0 : dec [] = []) {c : Cfg} {evs : List Ev} {s : St}
    (h : Reach c evs s) {rid : Nat} {z : Res} (hz : (resOf (detok dec (fun _ => []) s.sent) rid).getLast? = some z) :
    heard (resOf (detok dec (fun _ => []) s.sent) rid) = z.text := by
  rw [detok_rid] at hz ⊢
  have hlast : ∀ (ms : List Msg) (prev : Nat → Text), (detok dec prev ms).getLast? = some z → ∃ y, ms.getLast? = some y ∧ z.text = dec y.outputIds := by
    intro ms
    induction ms with
    | nil => intro prev hh; cases hh
    | cons m ms ih =>
      intro prev hh
      rw [detok] at hh
      rcases List.eq_nil_or_concat ms with rfl | ⟨ini, y, rfl⟩
      · simp only [detok, List.getLast?_singleton, Option.some.injEq] at hh
        exact ⟨m, rfl, by rw [← hh]; rfl⟩
      · have hne : detok dec (detok1 dec prev m).2 (ini.concat y) ≠ [] := by
          rw [List.concat_eq_append]
          cases ini <;> simp [detok]
        rw [List.getLast?_cons_of_ne_nil hne] at hh
        obtain ⟨x, hx, ht⟩ := ih _ hh
        refine ⟨x, ?_, ht⟩
        rw [List.getLast?_cons_of_ne_nil (by simp)]
        exact hx
  obtain ⟨y, hy, ht⟩ := hlast _ _ hz
  have := heard_chain hd (rid := rid) (s.sent.filter (·.rid = rid)) (fun _ => []) [] (fun q hq => by simpa using (List.mem_filter.1 hq).2) ?_ h0.symm y hy
  · rw [ht, ← this, h0, List.nil_append]
  · intro pre m post hm
    refine ⟨?_, ?_⟩
    · rw [List.nil_append]; exact C53_chain h hm
    · intro hp
      by_contra hne
      exact hp (C53_final_last h hm hne).1

/-- Non-vacuity: two pieces of text in the history of `Verif.Sched.o3`. -/
def letters (l : List Int) : Text := l.map (fun t => if t = 7 then 'h' else 'i')
example : heard (resOf (detok letters (fun _ => []) o3.sent) 0) = ['h', 'i'] ∧ (detok letters (fun _ => []) o3.sent).length = 2 := by decide +kernel
example : (∀ a b, a <+: b → letters a <+: letters b) ∧ letters [] = [] :=
  ⟨fun a b ⟨t, ht⟩ => ⟨letters t, by rw [← ht]; simp [letters]⟩, rfl⟩

/-- C56, violated: if a character is spread over two tokens, as it is with byte-level tokenizers, the first of them decodes to the
replacement character; the streaming client gets that one and never the character itself. -/
theorem C56_split_character_violated {dec : List Int → Text} (h1 : dec [7] = ['\uFFFD']) (h2 : dec [7, 8] = ['é']) :
    ∃ evs, Reach oc evs o3 ∧ resOf (detok dec (fun _ => []) o3.sent) 0 = [⟨0, ['\uFFFD'], ['\uFFFD'], false⟩, ⟨0, ['é'], [], false⟩] := by
  refine ⟨_, o3_reach, ?_⟩
  have : o3.sent = [⟨0, none, [7], 0, [7]⟩, ⟨0, none, [8], 1, [7, 8]⟩] := by decide +kernel
  rw [this]
  simp [detok, detok1, resOf, h1, h2]

/-- C56, violated: an aborted request leaves its text behind; a later request with the same id misses the beginning of its answer. -/
theorem C56_stale_text_violated : ∃ ms1 ms2 : List Msg, (∀ m ∈ ms1, m.rid = 0 ∧ m.reason = none) ∧
    ms2 = [⟨0, some .length, [7, 8], 0, [7, 8]⟩] ∧
    ∃ r, (detok letters (fun _ => []) (ms1 ++ ms2)).getLast? = some r ∧ r.text = ['h', 'i'] ∧ r.delta = ['i'] :=
  ⟨[⟨0, none, [7], 0, [7]⟩], _, by simp, rfl, ⟨0, ['h', 'i'], ['i'], true⟩, by decide, rfl, rfl⟩

/-! ### C57: nothing is lost on the way to the client -/

structure HInv {α : Type} (h : Hand α) : Prop where
  all : h.yielded ++ h.out.drop h.pos = h.got
  pos : h.pos ≤ h.out.length
  wait : h.pc = .waiting → h.pos = 0 ∧ (h.out ≠ [] → h.event = true)
  ev : h.out ≠ [] → h.event = true
  ret : h.pc = .returned → h.finished = true

theorem hinv_advance {α : Type} {h : Hand α} (hi : HInv h) : HInv h.advance := by
  unfold Hand.advance
  split
  · rename_i x hx
    have hlt : h.pos < h.out.length := by
      by_contra hge
      rw [List.getElem?_eq_none (by omega)] at hx
      cases hx
    refine ⟨?_, hlt, by simp, ?_, by simp⟩
    · change (h.yielded ++ [x]) ++ h.out.drop (h.pos + 1) = h.got
      rw [← hi.all, List.append_assoc, List.singleton_append]
      congr 1
      rw [List.getElem?_eq_getElem hlt, Option.some.injEq] at hx
      rw [← hx]
      exact (List.drop_eq_getElem_cons hlt).symm
    · exact hi.ev
  · rename_i hx
    have hge : h.out.length ≤ h.pos := List.getElem?_eq_none_iff.1 hx
    have hall : h.yielded ++ ([] : List α) = h.got := by
      have := hi.all
      rw [List.drop_eq_nil_of_le hge] at this
      exact this
    split
    · rename_i hf
      exact ⟨by simpa using hall, Nat.le_refl 0, by simp, by simp, fun _ => hf⟩
    · exact ⟨by simpa using hall, Nat.le_refl 0, by simp, by simp, by simp⟩

theorem hinv_reach {α : Type} {h : Hand α} (hr : HReach h) : HInv h := by
  induction hr with
  | init => exact ⟨rfl, Nat.le_refl 0, by simp [Hand.init], by simp [Hand.init], by simp [Hand.init]⟩
  | @recv h x fin _ hf ih =>
    refine ⟨?_, ?_, fun hw => ⟨(ih.wait hw).1, fun _ => rfl⟩, fun _ => rfl, ?_⟩
    · change h.yielded ++ (h.out ++ [x]).drop h.pos = h.got ++ [x]
      rw [List.drop_append_of_le_length ih.pos, ← List.append_assoc, ih.all]
    · change h.pos ≤ (h.out ++ [x]).length
      rw [List.length_append]
      exact ih.pos.trans (Nat.le_add_right _ _)
    · intro hp
      have := ih.ret hp
      rw [hf] at this
      cases this
  | wake _ _ _ ih => exact hinv_advance ih
  | resume _ _ ih => exact hinv_advance ih

/-- C57: what the client has seen and what is still in the list are all results, in order, each once. -/
theorem C57_lossless {α : Type} {h : Hand α} (hr : HReach h) : h.yielded ++ h.out.drop h.pos = h.got := (hinv_reach hr).all

/-- C57: the iterator ends only after the final result, and then the client has seen everything. -/
theorem C57_end {α : Type} {h : Hand α} (hr : HReach h) (hp : h.pc = .returned) : h.finished = true ∧ (h.out = [] → h.yielded = h.got) := by
  refine ⟨(hinv_reach hr).ret hp, fun ho => ?_⟩
  have := (hinv_reach hr).all
  rw [ho] at this
  simpa using this

theorem returned_out {α : Type} {h : Hand α} (hr : HReach h) (hp : h.pc = .returned) : h.out = [] := by
  induction hr with
  | init => cases hp
  | @recv h x fin hr hf ih =>
    have := (hinv_reach hr).ret hp
    rw [hf] at this
    cases this
  | @wake h _ _ _ ih =>
    unfold Hand.advance at hp ⊢
    split
    · rename_i x hx; simp [hx] at hp
    · split <;> rfl
  | @resume h _ _ ih =>
    unfold Hand.advance at hp ⊢
    split
    · rename_i x hx; simp [hx] at hp
    · split <;> rfl

/-- C57: after the end, nothing is left over. -/
theorem C57_complete {α : Type} {h : Hand α} (hr : HReach h) (hp : h.pc = .returned) : h.yielded = h.got :=
  (C57_end hr hp).2 (returned_out hr hp)

/-- C57: no lost wake-up: a client that has not seen all results is not left waiting. -/
theorem C57_wakeup {α : Type} {h : Hand α} (hr : HReach h) (hne : h.yielded ≠ h.got) : h.event = true := by
  have hi := hinv_reach hr
  refine hi.ev ?_
  intro ho
  apply hne
  have := hi.all
  rw [ho] at this
  simpa using this

/-- C57: a client that waits for the final result only (`_wait_for_final_result`, E L516-523, which takes the last element of the
list) gets the last result. -/
theorem C57_final {α : Type} {h : Hand α} (xs : List (α × Bool)) (hx : h = xs.foldl (fun h x => h.recv x.1 x.2) Hand.init) :
    h.out = h.got ∧ h.out = xs.map (·.1) ∧ h.finished = xs.any (·.2) := by
  have key : ∀ (xs : List (α × Bool)) (h : Hand α), (xs.foldl (fun h x => h.recv x.1 x.2) h).out = h.out ++ xs.map (·.1) ∧
      (xs.foldl (fun h x => h.recv x.1 x.2) h).got = h.got ++ xs.map (·.1) ∧
      (xs.foldl (fun h x => h.recv x.1 x.2) h).finished = (h.finished || xs.any (·.2)) := by
    intro xs
    induction xs with
    | nil => intro h; simp
    | cons x xs ih =>
      intro h
      rw [List.foldl_cons]
      obtain ⟨a1, a2, a3⟩ := ih (h.recv x.1 x.2)
      rw [a1, a2, a3]
      simp [Hand.recv, Bool.or_assoc]
  obtain ⟨a1, a2, a3⟩ := key xs Hand.init
  rw [hx, a1, a2, a3]
  simp [Hand.init]

/-- Non-vacuity: a result arrives while the client works on the previous one. -/
example : ∃ h : Hand Nat, HReach h ∧ h.pc = .returned ∧ h.yielded = [1, 2, 3] ∧ h.got = [1, 2, 3] := by
  refine ⟨_, .resume (.resume (.resume (.recv 3 true (.recv 2 false (.wake (.recv 1 false .init rfl) rfl rfl) rfl) rfl) rfl) rfl) rfl, rfl, rfl, rfl⟩

/-! ### C58: aborts -/

/-- The aborts in `evs` come when the request has left the queue. -/
def Late : Front → List FEv → Prop
  | _, [] => True
  | f, e :: evs => (match e with | .abort rid => ∀ r ∈ f.queue, r.rid ≠ rid | _ => True) ∧ Late (f.step e) evs

/-- Each request is submitted once, before its abort. -/
def Fresh : List FEv → Prop
  | [] => True
  | e :: evs => (match e with | .abort rid => ∀ r, .add r ∈ evs → r.rid ≠ rid | _ => True) ∧ Fresh evs

theorem run_snoc (f : Front) (evs : List FEv) (e : FEv) : f.run (evs ++ [e]) = (f.run evs).step e := by
  rw [Front.run, List.foldl_append]; rfl

theorem order_gen : ∀ (evs : List FEv) (f : Front), Late f evs → Fresh evs →
    (∀ pre rid post, f.wire = pre ++ .abort rid :: post → ∀ r, .req r ∈ post → r.rid ≠ rid) →
    (∀ rid, .abort rid ∈ f.wire → (∀ r ∈ f.queue, r.rid ≠ rid) ∧ ∀ r, .add r ∈ evs → r.rid ≠ rid) →
    ∀ pre rid post, (f.run evs).wire = pre ++ .abort rid :: post → ∀ r, .req r ∈ post → r.rid ≠ rid := by
  intro evs
  induction evs with
  | nil => intro f _ _ h _; exact h
  | cons e evs ih =>
    intro f hl hf h1 h2
    obtain ⟨hl1, hl2⟩ := hl
    obtain ⟨hf1, hf2⟩ := hf
    rw [Front.run, List.foldl_cons]
    refine ih (f.step e) hl2 hf2 ?_ ?_
    · intro pre rid post hw
      cases e with
      | add r => exact h1 pre rid post hw
      | send =>
        rw [Front.step] at hw
        cases hq : f.queue with
        | nil => rw [hq] at hw; exact h1 pre rid post hw
        | cons q qs =>
          rw [hq] at hw
          change f.wire ++ [.req q] = _ at hw
          rcases List.eq_nil_or_concat post with rfl | ⟨post', z, rfl⟩
          · intro r hr; cases hr
          · have hw' : f.wire ++ [Cmd.req q] = (pre ++ .abort rid :: post') ++ [z] := by rw [hw]; simp
            obtain ⟨e1, e2⟩ := List.append_inj' hw' rfl
            intro r hr
            rw [List.concat_eq_append] at hr
            rcases List.mem_append.1 hr with hr | hr
            · exact h1 pre rid post' e1 r hr
            · rw [List.mem_singleton] at hr
              have e3 : Cmd.req q = z := by simpa using e2
              rw [← e3] at hr
              cases hr
              exact (h2 rid (by rw [e1]; simp)).1 q (by rw [hq]; exact List.mem_cons_self)
      | abort x =>
        change f.wire ++ [.abort x] = _ at hw
        rcases List.eq_nil_or_concat post with rfl | ⟨post', z, rfl⟩
        · intro r hr; cases hr
        · have hw' : f.wire ++ [Cmd.abort x] = (pre ++ .abort rid :: post') ++ [z] := by rw [hw]; simp
          obtain ⟨e1, e2⟩ := List.append_inj' hw' rfl
          intro r hr
          rw [List.concat_eq_append] at hr
          rcases List.mem_append.1 hr with hr | hr
          · exact h1 pre rid post' e1 r hr
          · rw [List.mem_singleton] at hr
            have e3 : Cmd.abort x = z := by simpa using e2
            rw [← e3] at hr
            cases hr
    · intro rid hm
      cases e with
      | add q =>
        obtain ⟨a1, a2⟩ := h2 rid hm
        refine ⟨?_, fun r hr => a2 r (List.mem_cons_of_mem _ hr)⟩
        intro r hr
        rcases List.mem_append.1 hr with hr | hr
        · exact a1 r hr
        · rw [List.mem_singleton] at hr
          subst hr
          exact a2 r List.mem_cons_self
      | send =>
        rw [Front.step] at hm ⊢
        cases hq : f.queue with
        | nil =>
          rw [hq] at hm
          obtain ⟨a1, a2⟩ := h2 rid hm
          simp only
          exact ⟨a1, fun r hr => a2 r (List.mem_cons_of_mem _ hr)⟩
        | cons q qs =>
          rw [hq] at hm
          have hm' : Cmd.abort rid ∈ f.wire := by
            rcases List.mem_append.1 hm with hm | hm
            · exact hm
            · simp at hm
          obtain ⟨a1, a2⟩ := h2 rid hm'
          rw [hq] at a1
          exact ⟨fun r hr => a1 r (List.mem_cons_of_mem _ hr), fun r hr => a2 r (List.mem_cons_of_mem _ hr)⟩
      | abort x =>
        rcases List.mem_append.1 hm with hm | hm
        · obtain ⟨a1, a2⟩ := h2 rid hm
          exact ⟨a1, fun r hr => a2 r (List.mem_cons_of_mem _ hr)⟩
        · have : rid = x := by simpa using hm
          subst this
          exact ⟨hl1, hf1⟩

/-- C58: the scheduler gets the abort of a request after the request, if the request was already sent when the abort was made. -/
theorem C58_order_partial {evs : List FEv} (hl : Late ⟨[], []⟩ evs) (hf : Fresh evs) {pre post : List Cmd} {rid : Nat}
    (hw : seen false ((⟨[], []⟩ : Front).run evs).wire = pre ++ .abort rid :: post) {r : Raw} (hr : .req r ∈ post) : r.rid ≠ rid :=
  order_gen evs ⟨[], []⟩ hl hf (by intro pre rid post h; simp at h) (by intro rid h; cases h) pre rid post hw r hr

/-- C58: every abort made reaches the scheduler (without the shared queue), whatever else happens. -/
theorem C58_arrives {evs : List FEv} {rid : Nat} (h : .abort rid ∈ evs) : .abort rid ∈ seen false ((⟨[], []⟩ : Front).run evs).wire := by
  have key : ∀ (evs : List FEv) (f : Front), (.abort rid ∈ evs ∨ Cmd.abort rid ∈ f.wire) → Cmd.abort rid ∈ (f.run evs).wire := by
    intro evs
    induction evs with
    | nil => rintro f (h | h); · cases h
             · exact h
    | cons e evs ih =>
      intro f h
      refine ih (f.step e) ?_
      rcases h with h | h
      · rcases List.mem_cons.1 h with rfl | h
        · exact Or.inr (List.mem_append_right _ (List.mem_singleton.2 rfl))
        · exact Or.inl h
      · right
        cases e with
        | add r => exact h
        | send =>
          rw [Front.step]
          cases hq : f.queue with
          | nil => exact h
          | cons r rs => exact List.mem_append_left _ h
        | abort x => exact List.mem_append_left _ h
  exact key evs _ (Or.inl h)

def r0 : Raw := ⟨0, 2, some 2, [], true⟩

/-- Non-vacuity. -/
example : Late ⟨[], []⟩ [.add r0, .send, .abort 0] ∧ Fresh [.add r0, .send, .abort 0] ∧
    ((⟨[], []⟩ : Front).run [.add r0, .send, .abort 0]).wire = [.req r0, .abort 0] := by
  refine ⟨?_, ?_, rfl⟩
  · simp [Late, Front.step]
  · simp [Fresh]

/-- C58, violated: an abort overtakes a request that is still in the queue of the front end; the scheduler does not know the
request yet, and afterwards serves it to its end. -/
theorem C58_overtake_violated : ∃ f evs s, f = (⟨[], []⟩ : Front).run [.add r0, .abort 0, .send] ∧
    Reach oc evs s ∧ evs = [.iter (orc 5), .iter (orc 4)] ++ (seen false f.wire).reverse.map Cmd.ev ∧ msgsOf s 0 =
      [⟨0, none, [4], 0, [4]⟩, ⟨0, some .length, [5], 1, [4, 5]⟩] := by
  refine ⟨_, [.iter (orc 5), .iter (orc 4), .recv r0, .abort 0], (((St.init.abort 0).recv r0).iter oc (orc 4)).iter oc (orc 5), rfl, ?_, rfl, by decide +kernel⟩
  exact .step (.iter (orc 5)) (.step (.iter (orc 4)) (.step (.recv r0) (.step (.abort 0) .init trivial) (by simp [Ev.ok, St.step, St.abort, St.init]))
    (by simp [Ev.ok, orc])) (by simp [Ev.ok, orc])

/-- C58, violated: with the shared queue, the scheduler never sees an abort. -/
theorem C58_shared_queue_violated (wire : List Cmd) (rid : Nat) : .abort rid ∉ seen true wire := by
  intro h
  have := (List.mem_filter.1 h).2
  cases this

example : .abort 0 ∈ seen false ((⟨[], []⟩ : Front).run [.add r0, .send, .abort 0]).wire := by decide

end Verif.Deliver
