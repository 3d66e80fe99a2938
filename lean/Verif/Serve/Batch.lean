import Verif.Serve.Front

/-!
# Batches (C88, C89)
-/

namespace Verif.Serve

/-- `rid if isinstance(rid, list) else [rid]` (E L397). -/
def ridsList : Py → List Py
  | .list l => l
  | v => [v]

/-- What `Engine.generate` returns for a batch (E L396-402): the final results of the states it waits for, in order; `none` as
long as one of them is not finished. -/
def generateOut (g : Front) (rid : Py) (states : List Nat) : Option (List Out) :=
  ((ridsList rid).zip states).mapM fun x => (g.states x.2).final

theorem size_of_rid {r : Req} : r.size = ({ r with rid := .none } : Req).size := rfl

theorem add_single {ps : Py → String} {f : Front} {s : Req} {k : String} (hs : s.size = .ok none) (hk : s.rid = .str k) :
    f.add ps s = (f.register k s.payload, .ok [f.nstates]) := by
  unfold Front.add; rw [hs]; simp only; rw [hk]; rfl

theorem addItems_spec {ps : Py → String} {r : Req} {n : Nat} (hn : n ≠ 1) {subs : Nat → Req} :
    ∀ (is : List Nat) (f : Front), (∀ i ∈ is, Nth r i (subs i) ∧ (subs i).size = .ok none ∧ ∃ k, (subs i).rid = .str k) →
    addItems ps r n is f = (is.foldl (fun g i => (g.add ps (subs i)).1) f,
      .ok ((List.range is.length).map (f.nstates + ·)))
  | [], f, _ => rfl
  | i :: is, f, h => by
    obtain ⟨h1, h2, k, h3⟩ := h i List.mem_cons_self
    unfold addItems
    rw [item_nth hn h1]
    dsimp only
    rw [addItems_spec hn is _ (fun j hj => h j (List.mem_cons_of_mem _ hj)), List.foldl_cons, add_single h2 h3]
    have hk : keyOf ps (subs i).rid = k := by rw [h3]; rfl
    rw [hk]
    refine Prod.ext rfl ?_
    simp only [Except.map, List.length_cons, List.range_succ_eq_map, List.map_cons, List.map_map]
    congr 1
    congr 1
    apply List.map_congr_left
    intro a _
    simp only [Function.comp, Front.register]; omega

/-- C88: a call with two or more prompts does exactly what a call for each prompt, one after the other, does: the same messages
to the tokenizer, with each prompt's own options, the same table of states; and it waits for the states of these calls, in the
order of the prompts. -/
theorem C88_split_partial {ps : Py → String} {f : Front} {r : Req} {n : Nat} (subs : Nat → Req) (hs : r.size = .ok (some n))
    (hn : n ≠ 1) (h : ∀ i < n, Nth r i (subs i) ∧ (subs i).size = .ok none ∧ ∃ k, (subs i).rid = .str k) :
    f.add ps r = ((List.range n).foldl (fun g i => (g.add ps (subs i)).1) f, .ok ((List.range n).map (f.nstates + ·))) := by
  unfold Front.add; rw [hs]; dsimp only
  rw [addItems_spec hn (List.range n) f (fun i hi => h i (List.mem_range.1 hi)), List.length_range]
  rfl

/-- The front end after the registrations. -/
theorem fold_table {ps : Py → String} {subs : Nat → Req} {ks : Nat → String} : ∀ (is : List Nat) (f : Front), f.Ok →
    (∀ i ∈ is, (subs i).size = .ok none ∧ (subs i).rid = .str (ks i)) → (is.map ks).Nodup →
    let g := is.foldl (fun g i => (g.add ps (subs i)).1) f
    g.Ok ∧ g.nstates = f.nstates + is.length ∧ (∀ (p : Nat) (i : Nat), is[p]? = some i →
      g.table (ks i) = some (f.nstates + p) ∧ g.states (f.nstates + p) = ⟨[], false⟩) ∧
      (∀ k, k ∉ is.map ks → g.table k = f.table k) ∧ (∀ j < f.nstates, g.states j = f.states j) ∧
      g.queue = f.queue ++ is.map (fun i => (subs i).payload)
  | [], f, hf, _, _ => ⟨hf, rfl, by intro p i h; simp at h, fun _ _ => rfl, fun _ _ => rfl, by simp⟩
  | i :: is, f, hf, h, hd => by
    obtain ⟨h1, h2⟩ := h i List.mem_cons_self
    rw [List.map_cons, List.nodup_cons] at hd
    have hr := fold_table (ps := ps) is (f.register (ks i) (subs i).payload) (ok_register hf _ _)
      (fun j hj => h j (List.mem_cons_of_mem _ hj)) hd.2
    dsimp only at hr ⊢
    rw [List.foldl_cons, add_single h1 h2]
    dsimp only
    obtain ⟨a, b, c, d, e, q⟩ := hr
    have hns : (f.register (ks i) (subs i).payload).nstates = f.nstates + 1 := rfl
    refine ⟨a, by rw [b, hns, List.length_cons]; omega, ?_, ?_, ?_, ?_⟩
    · intro p j hp
      cases p with
      | zero =>
        simp only [List.getElem?_cons_zero, Option.some.injEq] at hp
        subst hp
        constructor
        · rw [d _ hd.1]; simp [Front.register, setKey]
        · rw [Nat.add_zero, e f.nstates (by rw [hns]; omega)]; simp [Front.register]
      | succ p =>
        simp only [List.getElem?_cons_succ] at hp
        have := c p j hp
        rw [hns] at this
        rw [show f.nstates + (p + 1) = f.nstates + 1 + p from by omega]
        exact this
    · intro k hk
      simp only [List.map_cons, List.mem_cons, not_or] at hk
      rw [d k hk.2]
      simp only [Front.register, setKey]; rw [if_neg hk.1]
    · intro j hj
      rw [e j (by rw [hns]; omega)]
      simp only [Front.register]; rw [if_neg (by omega)]
    · rw [q]; simp [Front.register]

/-- C88: whatever other clients do meanwhile, the states of a batch with different ids collect exactly the results for their own
prompts, in order of arrival. -/
theorem C88_collect_partial {ps : Py → String} {f : Front} (hf : f.Ok) {r : Req} {n : Nat} (subs : Nat → Req) (ks : Nat → String)
    (hs : r.size = .ok (some n)) (hn : n ≠ 1)
    (h : ∀ i < n, Nth r i (subs i) ∧ (subs i).size = .ok none ∧ (subs i).rid = .str (ks i))
    (hd : ((List.range n).map ks).Nodup) {evs : List Ev} (he : ∀ e ∈ evs, ∀ i < n, ¬ e.Touches ps (ks i)) {i : Nat} (hi : i < n) :
    (((f.add ps r).1.run ps evs).states (f.nstates + i)) =
      ⟨(resultsFor (ks i) evs).map .res, (resultsFor (ks i) evs).any (·.fin)⟩ := by
  rw [C88_split_partial subs hs hn (fun i hi => ⟨(h i hi).1, (h i hi).2.1, _, (h i hi).2.2⟩)]
  obtain ⟨a, _, c, _⟩ := fold_table (ps := ps) (List.range n) f hf
    (fun j hj => ⟨(h j (List.mem_range.1 hj)).2.1, (h j (List.mem_range.1 hj)).2.2⟩) hd
  have hc := c i i (by rw [List.getElem?_range hi])
  have := (collect_run ps evs _ a hc.1 (fun e he' => he e he' i hi)).2
  rw [this, hc.2]
  simp

theorem mapM_some {α β : Type} {g : α → Option β} : ∀ {l : List α} {m : List β}, l.length = m.length →
    (∀ (i : Nat) (a : α) (b : β), l[i]? = some a → m[i]? = some b → g a = some b) → l.mapM g = some m
  | [], [], _, _ => by rfl
  | [], _ :: _, h, _ => by simp at h
  | _ :: _, [], h, _ => by simp at h
  | a :: l, b :: m, h, hg => by
    have h1 := hg 0 a b rfl rfl
    have h2 := mapM_some (g := g) (l := l) (m := m) (by simpa using h) (fun i a' b' ha hb => hg (i + 1) a' b' (by simpa using ha) (by simpa using hb))
    rw [List.mapM_cons, h1, h2]; rfl

/-- C88: `generate` on a batch returns the final result of every prompt, in the order of the prompts, once all of them have
arrived, in whatever order they arrive. -/
theorem C88_answers_partial {ps : Py → String} {f : Front} (hf : f.Ok) {r : Req} {ks : List String} (subs : Nat → Req)
    (hs : r.size = .ok (some ks.length)) (hn : ks.length ≠ 1) (hr : r.rid = .list (ks.map .str)) (hd : ks.Nodup)
    (h : ∀ i < ks.length, Nth r i (subs i) ∧ (subs i).size = .ok none) {evs : List Ev}
    (he : ∀ e ∈ evs, ∀ k ∈ ks, ¬ e.Touches ps k) {ys : List Res} (hl : ys.length = ks.length)
    (hy : ∀ (i : Nat) (k : String) (y : Res), ks[i]? = some k → ys[i]? = some y →
      ∃ xs, resultsFor k evs = xs ++ [y] ∧ y.fin = true) :
    ∃ states, (f.add ps r).2 = .ok states ∧
      generateOut ((f.add ps r).1.run ps evs) r.rid states = some (ys.map .res) := by
  have hk : ∀ i < ks.length, ks[i]? = some (ks.getD i "") := by
    intro i hi; simp [List.getD, List.getElem?_eq_getElem hi]
  have hrid : ∀ i < ks.length, (subs i).rid = .str (ks.getD i "") := by
    intro i hi
    have := (h i hi).1.rid
    rw [hr] at this
    simp only [At, List.getElem?_map, hk i hi, Option.map_some, Option.some.injEq] at this
    exact this.symm
  have hks : (List.range ks.length).map (fun i => ks.getD i "") = ks := by
    apply List.ext_getElem? ; intro i
    by_cases hi : i < ks.length
    · rw [List.getElem?_map, List.getElem?_range hi, hk i hi]; rfl
    · rw [List.getElem?_map, List.getElem?_eq_none (by simp; omega), List.getElem?_eq_none (by omega)]; rfl
  refine ⟨(List.range ks.length).map (f.nstates + ·), ?_, ?_⟩
  · rw [C88_split_partial subs hs hn (fun i hi => ⟨(h i hi).1, (h i hi).2, _, hrid i hi⟩)]
  · unfold generateOut
    apply mapM_some
    · rw [hr]; simp [ridsList, hl]
    · intro i a b ha hb
      have hi : i < ks.length := by
        have := (List.getElem?_eq_some_iff.1 hb).1
        simp at this; omega
      have hc := C88_collect_partial (ps := ps) hf subs (fun i => ks.getD i "") hs hn (fun j hj => ⟨(h j hj).1, (h j hj).2, hrid j hj⟩)
        (by rw [hks]; exact hd) (evs := evs) (fun e hee j hj => he e hee _ (List.mem_of_getElem? (hk j hj))) hi
      have ha2 : a.2 = f.nstates + i := by
        rw [List.getElem?_zip_eq_some] at ha
        have := ha.2
        rw [List.getElem?_map, List.getElem?_range hi] at this
        simpa using this.symm
      rw [List.getElem?_map] at hb
      obtain ⟨y, hy1, hy2⟩ := Option.map_eq_some_iff.1 hb
      obtain ⟨xs, hx1, hx2⟩ := hy i _ y (hk i hi) hy1
      rw [ha2, hc, hx1]
      subst hy2
      simp [State.final, hx2]

/-- The batch of the examples: two prompts, one option list, one option for both. -/
def twoPrompts : Req :=
  { rid := .list [.str "a", .str "b"], text := .list [.str "hi", .str "yo"], topLogprobs := .list [.int 1, .int 2], lora := .str "x" }

def onePrompt (i : Nat) : Req :=
  if i = 0 then { rid := .str "a", text := .str "hi", topLogprobs := .int 1, lora := .str "x" }
  else { rid := .str "b", text := .str "yo", topLogprobs := .int 2, lora := .str "x" }

theorem twoPrompts_ok : ∀ i < 2, Nth twoPrompts i (onePrompt i) ∧ (onePrompt i).size = .ok none := by
  intro i hi
  have : i = 0 ∨ i = 1 := by omega
  rcases this with rfl | rfl
  · exact ⟨by constructor <;> rfl, rfl⟩
  · exact ⟨by constructor <;> rfl, rfl⟩

/-- Non-vacuity: the second prompt is answered first, an intermediate result and another client's result in between. -/
example (ps : Py → String) : ∃ states, (Front.init.add ps twoPrompts).2 = .ok states ∧
    generateOut ((Front.init.add ps twoPrompts).1.run ps [.recv ⟨.str "b", true, 7⟩, .recv ⟨.str "c", true, 0⟩,
      .recv ⟨.str "a", false, 1⟩, .recv ⟨.str "a", true, 2⟩]) twoPrompts.rid states =
      some [.res ⟨.str "a", true, 2⟩, .res ⟨.str "b", true, 7⟩] := by
  refine C88_answers_partial ok_init (ks := ["a", "b"]) onePrompt rfl (by decide) rfl (by decide) twoPrompts_ok
    (ys := [⟨.str "a", true, 2⟩, ⟨.str "b", true, 7⟩]) ?_ rfl ?_
  · intro e he k _
    simp only [List.mem_cons, List.not_mem_nil, or_false] at he
    rcases he with rfl | rfl | rfl | rfl <;> exact id
  · intro i k y hk hy
    match i with
    | 0 =>
      simp at hk hy; subst hk hy
      refine ⟨[⟨.str "a", false, 1⟩], ?_, rfl⟩
      simp [resultsFor]
    | 1 =>
      simp at hk hy; subst hk hy
      exact ⟨[], by simp [resultsFor], rfl⟩
    | n + 2 => simp at hk

/-! ### Violations -/

/-- C88, violated: a batch of one prompt. Its state is registered under the text of the whole list of ids, the message carries
the list; nothing the rest of the system sends back, other than for that text, ever reaches the caller, whatever else happens. -/
theorem C88_one_prompt_violated {ps : Py → String} {f : Front} (hf : f.Ok) {rid prompt : String} {r : Req}
    (hr : r.rid = .list [.str rid]) (ht : r.text = .list [.str prompt]) (hi : r.inputIds = .none) (hx : r.extra = []) :
    (f.add ps r).2 = .ok [f.nstates] ∧
    (∃ m, (f.add ps r).1.queue = f.queue ++ [m] ∧ m "rid" = some (.list [.str rid])) ∧
    ∀ evs : List Ev, (∀ e ∈ evs, ¬ e.Touches ps (ps (.list [.str rid]))) →
      (∀ x, .recv x ∈ evs → x.rid ≠ .str (ps (.list [.str rid]))) →
      generateOut ((f.add ps r).1.run ps evs) r.rid [f.nstates] = none := by
  have hadd : f.add ps r = (f.register (ps (.list [.str rid])) r.payload, .ok [f.nstates]) := by
    have hsz : r.size = .ok (some 1) := by simp [Req.size, ht, hi, Py.isNone]
    unfold Front.add; rw [hsz]; dsimp only
    simp only [List.range_succ, List.range_zero, List.nil_append, addItems, Req.item, if_pos]
    rw [hr]; rfl
  rw [hadd]
  refine ⟨rfl, ⟨r.payload, rfl, by simp [Req.payload, hx, Req.field, hr, present, Py.isNone]⟩, ?_⟩
  intro evs he hx'
  have h1 := collect_run ps evs (f.register (ps (.list [.str rid])) r.payload) (ok_register hf _ _)
    (j := f.nstates) (k := ps (.list [.str rid])) (by simp [Front.register, setKey]) he
  have h2 : ∀ evs : List Ev, (∀ x, .recv x ∈ evs → x.rid ≠ .str (ps (.list [.str rid]))) → resultsFor (ps (.list [.str rid])) evs = [] := by
    intro evs
    induction evs with
    | nil => intro _; rfl
    | cons e evs ih =>
      intro hh
      have := ih (fun x hx => hh x (List.mem_cons_of_mem _ hx))
      cases e with
      | recv x => simp only [resultsFor]; rw [if_neg (hh x List.mem_cons_self)]; exact this
      | _ => simpa only [resultsFor] using this
  have h3 : ((f.register (ps (.list [.str rid])) r.payload).run ps evs).states f.nstates = ⟨[], false⟩ := by
    rw [h1.2, h2 evs hx']; simp [Front.register]
  simp [generateOut, hr, ridsList, h3, State.final]

/-- Non-vacuity: the answer, under the id the message carries, and under the plain id. -/
example (ps : Py → String) (hps : ps (.list [.str "a"]) ≠ "a") :
    generateOut ((Front.init.add ps { rid := .list [.str "a"], text := .list [.str "hi"] }).1.run ps
      [.recv ⟨.list [.str "a"], true, 1⟩, .recv ⟨.str "a", true, 1⟩]) (.list [.str "a"]) [0] = none := by
  refine (C88_one_prompt_violated ok_init (r := { rid := .list [.str "a"], text := .list [.str "hi"] }) rfl rfl rfl rfl).2.2 _ ?_ ?_
  · intro e he
    simp only [List.mem_cons, List.not_mem_nil, or_false] at he
    rcases he with rfl | rfl <;> exact id
  · intro x hx
    simp only [List.mem_cons, Ev.recv.injEq, List.not_mem_nil, or_false] at hx
    rcases hx with rfl | rfl
    · intro h; cases h
    · intro h; injection h with h; exact hps h.symm

/-- C88, violated: a batch with one id for all its prompts. `generate` waits for the first prompt only, and its state has been
replaced: whatever arrives, it waits for ever. -/
theorem C88_one_id_violated {ps : Py → String} {f : Front} (hf : f.Ok) {rid : String} {r : Req} {prompts : List String}
    (hr : r.rid = .str rid) (ht : r.text = .list (prompts.map .str)) (hn : 2 ≤ prompts.length) (subs : Nat → Req)
    (h : ∀ i < prompts.length, Nth r i (subs i) ∧ (subs i).size = .ok none) (hi : r.inputIds = .none) :
    ∃ states, (f.add ps r).2 = .ok states ∧
      ∀ evs : List Ev, generateOut ((f.add ps r).1.run ps evs) r.rid states = none := by
  have hsz : r.size = .ok (some prompts.length) := by
    match prompts, hn with
    | p :: q :: ps, _ => simp [Req.size, ht, hi, Py.isNone]
  have hrid : ∀ i < prompts.length, (subs i).rid = .str rid := by
    intro i hi'; have := (h i hi').1.rid; rw [hr] at this; exact this
  have hs := C88_split_partial (ps := ps) (f := f) subs hsz (by omega) (fun i hi' => ⟨(h i hi').1, (h i hi').2, _, hrid i hi'⟩)
  rw [hs]
  refine ⟨_, rfl, ?_⟩
  intro evs
  have key : ∀ (is : List Nat) (g : Front), g.Ok → f.nstates < g.nstates → g.states f.nstates = ⟨[], false⟩ →
      (g.Orphan f.nstates ∨ (g.table rid = some f.nstates ∧ is ≠ [])) →
      (∀ i ∈ is, (subs i).size = .ok none ∧ (subs i).rid = .str rid) →
      (is.foldl (fun g i => (g.add ps (subs i)).1) g).Orphan f.nstates ∧
      (is.foldl (fun g i => (g.add ps (subs i)).1) g).states f.nstates = ⟨[], false⟩ := by
    intro is
    induction is with
    | nil =>
      intro g _ _ hst ho _
      rcases ho with ho | ⟨_, ho⟩
      · exact ⟨ho, hst⟩
      · exact absurd rfl ho
    | cons i is ih =>
      intro g hg hlt hst ho hall
      obtain ⟨h1, h2⟩ := hall i List.mem_cons_self
      rw [List.foldl_cons, add_single h1 h2]
      refine ih (g.register rid (subs i).payload) (ok_register hg _ _) (by simp only [Front.register]; omega) ?_ (Or.inl ?_)
        (fun j hj => hall j (List.mem_cons_of_mem _ hj))
      · simp only [Front.register]; rw [if_neg (by omega)]; exact hst
      · refine ⟨by simp only [Front.register]; omega, ?_⟩
        intro k hk
        simp only [Front.register, setKey] at hk
        split at hk
        · simp only [Option.some.injEq] at hk; omega
        · next hkr =>
          rcases ho with ho | ⟨ho, _⟩
          · exact ho.2 k hk
          · exact hkr (hg.inj _ _ _ hk ho)
  have hall : ∀ i ∈ List.range prompts.length, (subs i).size = .ok none ∧ (subs i).rid = .str rid :=
    fun i hi' => ⟨(h i (List.mem_range.1 hi')).2, hrid i (List.mem_range.1 hi')⟩
  obtain ⟨m, hm⟩ : ∃ m, prompts.length = m + 2 := ⟨prompts.length - 2, by omega⟩
  rw [hm] at hall ⊢
  have hrg : List.range (m + 2) = 0 :: (List.range (m + 1)).map Nat.succ := List.range_succ_eq_map
  have h0 := hall 0 (by simp)
  have hfin := key ((List.range (m + 1)).map Nat.succ) (f.register rid (subs 0).payload) (ok_register hf _ _)
    (by simp only [Front.register]; omega) (by simp [Front.register]) (Or.inr ⟨by simp [Front.register, setKey], by simp⟩)
    (fun i hi' => hall i (by rw [hrg]; exact List.mem_cons_of_mem _ hi'))
  rw [hrg, List.foldl_cons, add_single h0.1 h0.2]
  dsimp only
  have hrun := orphan_run ps evs hfin.1
  simp [generateOut, hr, ridsList, hrun.2, hfin.2, State.final]

/-- Non-vacuity. -/
example (ps : Py → String) : ∃ states, (Front.init.add ps { rid := .str "a", text := .list [.str "hi", .str "yo"] }).2 = .ok states ∧
    ∀ evs, generateOut ((Front.init.add ps { rid := .str "a", text := .list [.str "hi", .str "yo"] }).1.run ps evs) (.str "a") states = none :=
  C88_one_id_violated (prompts := ["hi", "yo"]) ok_init rfl rfl (by decide)
    (fun i => if i = 0 then { rid := .str "a", text := .str "hi" } else { rid := .str "a", text := .str "yo" })
    (by
      intro i hi
      have : i = 0 ∨ i = 1 := by simp at hi; omega
      rcases this with rfl | rfl <;> exact ⟨by constructor <;> rfl, rfl⟩) rfl

/-- C88, violated: an option list that is too short. The call fails, but the prompts before the missing entry have been sent to
the tokenizer; they run, and nobody waits for them. -/
theorem C88_short_list_violated {ps : Py → String} {f : Front} {r : Req} {n m : Nat} (subs : Nat → Req)
    (hs : r.size = .ok (some n)) (hn : n ≠ 1) (hm : m < n)
    (h : ∀ i < m, Nth r i (subs i) ∧ (subs i).size = .ok none ∧ ∃ k, (subs i).rid = .str k)
    {l : List Py} (hl : r.rid = .list l) (hlen : l.length = m) :
    (f.add ps r).2 = .error .index ∧
      (f.add ps r).1 = (List.range m).foldl (fun g i => (g.add ps (subs i)).1) f := by
  unfold Front.add; rw [hs]; dsimp only
  have hsplit : List.range n = List.range m ++ (List.range (n - m)).map (m + ·) := by
    rw [← List.range_add]; congr 1; omega
  rw [hsplit]
  have hrest : ∀ g, addItems ps r n ((List.range (n - m)).map (m + ·)) g = (g, .error .index) := by
    intro g
    obtain ⟨d, hd⟩ : ∃ d, n - m = d + 1 := ⟨n - m - 1, by omega⟩
    rw [hd, List.range_succ_eq_map, List.map_cons]
    unfold addItems
    have : r.item n (m + 0) = .error .index := by
      unfold Req.item; rw [if_neg hn]
      have : pick r.rid (m + 0) = .error .index := by
        rw [hl]; simp [pick, hlen]
      rw [this]; rfl
    rw [this]
  have gen : ∀ (is : List Nat) (g : Front), (∀ i ∈ is, i < m) →
      addItems ps r n (is ++ (List.range (n - m)).map (m + ·)) g =
        (is.foldl (fun g i => (g.add ps (subs i)).1) g, .error .index) := by
    intro is
    induction is with
    | nil => intro g _; simpa using hrest g
    | cons i is ih =>
      intro g hi
      obtain ⟨h1, h2, k, h3⟩ := h i (hi i List.mem_cons_self)
      rw [List.cons_append]
      unfold addItems
      rw [item_nth hn h1]
      dsimp only
      rw [ih _ (fun j hj => hi j (List.mem_cons_of_mem _ hj)), List.foldl_cons, add_single h2 h3, h3]
      rfl
  rw [gen _ _ (fun i hi => List.mem_range.1 hi)]
  exact ⟨rfl, rfl⟩

/-- Non-vacuity: two prompts, one id in the list: the first prompt is sent. -/
example (ps : Py → String) : let r : Req := { rid := .list [.str "a"], text := .list [.str "hi", .str "yo"] }
    (Front.init.add ps r).2 = .error .index ∧ (Front.init.add ps r).1.queue.length = 1 := by
  have := C88_short_list_violated (ps := ps) (f := Front.init) (n := 2) (m := 1)
    (r := { rid := .list [.str "a"], text := .list [.str "hi", .str "yo"] })
    (fun _ => { rid := .str "a", text := .str "hi" }) rfl (by decide) (by decide)
    (by intro i hi; obtain rfl : i = 0 := by omega
        exact ⟨by constructor <;> rfl, rfl, "a", rfl⟩) rfl rfl
  exact ⟨this.1, by rw [this.2]; rfl⟩

/-! ### C89: states of other clients, and what stays behind -/

/-- C89: a request keeps its place in the table until the client takes it out: exactly the results for its id are recorded in its
state, whatever happens to other ids. -/
theorem C89_own_results_partial {ps : Py → String} {f : Front} (hf : f.Ok) {r : Req} {k : String} (hs : r.size = .ok none)
    (hk : r.rid = .str k) {evs : List Ev} (he : ∀ e ∈ evs, ¬ e.Touches ps k) :
    ((f.add ps r).1.run ps evs).states f.nstates = ⟨(resultsFor k evs).map .res, (resultsFor k evs).any (·.fin)⟩ := by
  rw [add_single hs hk]
  have := (collect_run ps evs _ (ok_register hf k r.payload) (k := k) (j := f.nstates) (by simp [Front.register, setKey]) he).2
  rw [this]; simp [Front.register]

/-- Non-vacuity: another client comes, is aborted, a third one is removed. -/
example (ps : Py → String) : ((Front.init.add ps { rid := .str "a", text := .str "hi" }).1.run ps
    [.add { rid := .str "b", text := .str "x" }, .abort "b", .recv ⟨.str "a", true, 3⟩, .remove "c"]).states 0 =
    ⟨[.res ⟨.str "a", true, 3⟩], true⟩ := by
  have := C89_own_results_partial (ps := ps) ok_init (r := { rid := .str "a", text := .str "hi" }) (k := "a") rfl rfl
    (evs := [.add { rid := .str "b", text := .str "x" }, .abort "b", .recv ⟨.str "a", true, 3⟩, .remove "c"]) (by
      intro e he
      simp only [List.mem_cons, List.not_mem_nil, or_false] at he
      rcases he with rfl | rfl | rfl | rfl
      · intro h; rcases h with h | ⟨l, h, _⟩
        · revert h; simp [keyOf]
        · cases h
      · simp [Ev.Touches]
      · exact id
      · simp [Ev.Touches])
  rw [show Front.init.nstates = 0 from rfl] at this
  rw [this]; simp [resultsFor]

/-- C89: when the client has its answer, or is gone, its id is free again. -/
theorem C89_released (ps : Py → String) (f : Front) (k : String) :
    (f.step ps (.remove k)).table k = none ∧ (f.step ps (.abort k)).table k = none := by
  constructor
  · simp [Front.step, Front.remove, setKey]
  · show (f.finish k .aborted).table k = none
    rw [(finish_table f k _).1]; simp [setKey]

/-- C89, violated: a second request with the id of a request that is still running cuts the first client off for ever. -/
theorem C89_same_id_violated {ps : Py → String} {f : Front} (hf : f.Ok) {k : String} {j : Nat} (h : f.table k = some j)
    {r : Req} (hs : r.size = .ok none) (hk : r.rid = .str k) (evs : List Ev) :
    ((f.add ps r).1.run ps evs).states j = f.states j := by
  rw [add_single hs hk]
  have hlt := hf.lt k j h
  have ho : (f.register k r.payload).Orphan j := by
    refine ⟨by simp only [Front.register]; omega, ?_⟩
    intro k' hk'
    simp only [Front.register, setKey] at hk'
    split at hk'
    · simp only [Option.some.injEq] at hk'; omega
    · next hne => exact hne (hf.inj _ _ _ hk' h)
  rw [(orphan_run ps evs ho).2]
  simp only [Front.register]; rw [if_neg (by omega)]

/-- Non-vacuity: the first client's result arrives after the second request. -/
example (ps : Py → String) : (((Front.init.add ps { rid := .str "a", text := .str "hi" }).1.add ps { rid := .str "a", text := .str "yo" }).1.run ps
    [.recv ⟨.str "a", true, 1⟩]).states 0 = ⟨[], false⟩ :=
  C89_same_id_violated (f := (Front.init.add ps { rid := .str "a", text := .str "hi" }).1) (ok_add ok_init _) (k := "a") (j := 0)
    rfl (r := { rid := .str "a", text := .str "yo" }) rfl rfl _

/-- C89, violated: `Engine.generate` does not take its states out of the table (E L390-408), and the clean-up leaves finished
states alone: the entry of an answered request stays, however long the engine runs. -/
theorem C89_sync_leak_violated {ps : Py → String} {f : Front} (hf : f.Ok) {k : String} {j : Nat} (h : f.table k = some j)
    (hfin : (f.states j).finished = true) {evs : List Ev}
    (he : ∀ e ∈ evs, (∃ k', e = .stale k') ∨ ¬ e.Touches ps k) : (f.run ps evs).table k = some j ∧
      ((f.run ps evs).states j).finished = true := by
  induction evs generalizing f with
  | nil => exact ⟨h, hfin⟩
  | cons e evs ih =>
    have hx : (f.step ps e).table k = some j ∧ ((f.step ps e).states j).finished = true := by
      by_cases ht : e.Touches ps k
      · rcases he e List.mem_cons_self with ⟨k', rfl⟩ | hne
        · obtain rfl : k' = k := ht
          simp only [Front.step, h, hfin, if_pos]
          exact ⟨trivial, trivial⟩
        · exact absurd ht hne
      · have := collect_step ps e f hf h ht
        exact ⟨this.1, by rw [this.2]; simp [hfin]⟩
    exact ih (ok_step hf e) hx.1 hx.2 (fun x hx' => he x (List.mem_cons_of_mem _ hx'))

/-- Non-vacuity: an answered request, then the clean-up. -/
example (ps : Py → String) : ((Front.init.add ps { rid := .str "a", text := .str "hi" }).1.run ps
    [.recv ⟨.str "a", true, 1⟩, .stale "a"]).table "a" = some 0 := by
  have := C89_sync_leak_violated (ps := ps) (f := (Front.init.add ps { rid := .str "a", text := .str "hi" }).1.run ps [.recv ⟨.str "a", true, 1⟩])
    (ok_run _ (ok_add ok_init _)) (k := "a") (j := 0) rfl rfl (evs := [.stale "a"]) (by intro e he; simp at he; exact Or.inl ⟨_, he⟩)
  exact this.1

end Verif.Serve
