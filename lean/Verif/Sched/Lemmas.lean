import Verif.Sched.Model
namespace Verif.Sched

theorem mem_mergeStop (t : Int) (eos : List Int) : ∀ stop : List Int, t ∈ mergeStop stop eos ↔ t ∈ stop ∨ t ∈ eos := by
  unfold mergeStop
  induction eos with
  | nil => intro stop; simp
  | cons e es ih =>
    intro stop
    rw [List.foldl_cons, ih]
    by_cases he : e ∈ stop
    · rw [if_pos he]
      constructor
      · rintro (h | h)
        · exact Or.inl h
        · exact Or.inr (List.mem_cons_of_mem _ h)
      · rintro (h | h)
        · exact Or.inl h
        · rcases List.mem_cons.1 h with rfl | h
          · exact Or.inl he
          · exact Or.inr h
    · rw [if_neg he]
      simp [or_assoc]

/-- What a request holds of the budget. -/
def charge (r : Req) : Int := (r.seq : Int) - r.pre

def charges (l : List Req) : Int := (l.map charge).sum

@[simp] theorem charges_nil : charges [] = 0 := rfl
@[simp] theorem charges_cons (r : Req) (l : List Req) : charges (r :: l) = charge r + charges l := by simp [charges]
@[simp] theorem charges_append (l m : List Req) : charges (l ++ m) = charges l + charges m := by simp [charges]

theorem charges_nonneg {l : List Req} (h : ∀ r ∈ l, r.pre ≤ r.seq) : 0 ≤ charges l := by
  induction l with
  | nil => simp
  | cons r l ih =>
    have h1 := h r List.mem_cons_self
    have h2 := ih (fun q hq => h q (List.mem_cons_of_mem _ hq))
    rw [charges_cons, charge]
    omega

theorem charges_perm {l m : List Req} (h : l.Perm m) : charges l = charges m := (h.map charge).sum_eq

theorem purge_fst (l : List Req) : ∀ u, (purge l u).1 = l.filter (fun r => r.reason.isNone) := by
  induction l with
  | nil => intro u; rfl
  | cons r l ih =>
    intro u
    rw [purge]
    by_cases hr : r.reason.isSome = true
    · rw [if_pos hr, ih, List.filter_cons_of_neg (by cases h : r.reason <;> simp_all)]
    · rw [if_neg hr, ih, List.filter_cons_of_pos (by cases h : r.reason <;> simp_all)]

theorem purge_snd {l : List Req} (h : ∀ r ∈ l, r.pre ≤ r.seq) : ∀ {v : Int}, 0 ≤ v →
    (purge l (charges l + v)).2 = charges (l.filter (fun r => r.reason.isNone)) + v := by
  induction l with
  | nil => intro v _; simp [purge]
  | cons r l ih =>
    intro v hv
    have h2 : ∀ q ∈ l, q.pre ≤ q.seq := fun q hq => h q (List.mem_cons_of_mem _ hq)
    have h1 := h r List.mem_cons_self
    have h3 := charges_nonneg h2
    rw [purge]
    by_cases hr : r.reason.isSome = true
    · rw [if_pos hr, List.filter_cons_of_neg (by cases h : r.reason <;> simp_all), ← ih h2 hv]
      congr 1
      rw [freed, charges_cons, charge]
      congr 1
      omega
    · rw [if_neg hr, List.filter_cons_of_pos (by cases h : r.reason <;> simp_all)]
      have := ih h2 (v := charge r + v) (by rw [charge]; omega)
      rw [charges_cons, charges_cons]
      have e : charge r + charges l + v = charges l + (charge r + v) := by ring
      simp only [e, this]
      ring

theorem admit_perm (c : Cfg) (l : List Req) : ∀ n u b, ((admit c n u b l).1 ++ (admit c n u b l).2.1).Perm l := by
  induction l with
  | nil => intro n u b; simp [admit]
  | cons r l ih =>
    intro n u b
    rw [admit]
    split
    · exact (ih _ _ _).cons _
    · exact List.perm_middle.trans ((ih _ _ _).cons _)

def inps (l : List Req) : Int := (l.map (fun r => (r.inp : Int))).sum

theorem admit_used (c : Cfg) (l : List Req) : ∀ n u b, (admit c n u b l).2.2 = u + inps (admit c n u b l).1 := by
  induction l with
  | nil => intro n u b; simp [admit, inps]
  | cons r l ih =>
    intro n u b
    rw [admit]
    split
    · have := ih (n + 1) (u + r.inp) (b - r.inp)
      simp only [this, inps, List.map_cons, List.sum_cons]
      ring
    · exact ih _ _ _

theorem admit_count (c : Cfg) (l : List Req) : ∀ n u b, n ≤ c.maxRun → n + (admit c n u b l).1.length ≤ c.maxRun := by
  induction l with
  | nil => intro n u b h; simpa [admit] using h
  | cons r l ih =>
    intro n u b h
    rw [admit]
    split
    · rename_i hc
      have := ih (n + 1) (u + r.inp) (b - r.inp) hc.1
      simp only [List.length_cons]
      omega
    · exact ih _ _ _ h

theorem admit_total (c : Cfg) (l : List Req) : ∀ n u b, (admit c n u b l).1 ≠ [] → (admit c n u b l).2.2 ≤ c.maxTotal := by
  induction l with
  | nil => intro n u b h; exact absurd rfl h
  | cons r l ih =>
    intro n u b
    rw [admit]
    split
    · rename_i hc
      intro _
      by_cases he : (admit c (n + 1) (u + r.inp) (b - r.inp) l).1 = []
      · have := admit_used c l (n + 1) (u + r.inp) (b - r.inp)
        rw [he] at this
        simp only [this, inps, List.map_nil, List.sum_nil]
        omega
      · exact ih _ _ _ he
    · exact ih _ _ _

theorem admit_ok (c : Cfg) (l : List Req) : ∀ n u b, 0 ≤ u → ∀ r ∈ (admit c n u b l).1, r.inp ≤ b ∧ r.inp ≤ c.maxTotal := by
  induction l with
  | nil => intro n u b _ r hr; cases hr
  | cons q l ih =>
    intro n u b hu r
    rw [admit]
    split
    · rename_i hc
      intro hr
      rcases List.mem_cons.1 hr with rfl | hr
      · exact ⟨hc.2.2, by omega⟩
      · have := ih (n + 1) (u + q.inp) (b - q.inp) (by omega) r hr
        omega
    · exact ih _ _ _ hu r

theorem admit_none (c : Cfg) (l : List Req) : ∀ n u b, (admit c n u b l).1 = [] →
    ∀ r ∈ l, ¬ (n < c.maxRun ∧ u + r.inp ≤ c.maxTotal ∧ r.inp ≤ b) := by
  induction l with
  | nil => intro n u b _ r hr; cases hr
  | cons q l ih =>
    intro n u b h r hr
    rw [admit] at h
    split at h
    · cases h
    · rename_i hc
      rcases List.mem_cons.1 hr with rfl | hr
      · exact hc
      · exact ih _ _ _ h r hr

/-- A request after a batch. -/
def adv (ext : Bool) (o : Oracle) (r : Req) : Req :=
  push (o r.rid).1 (if ext = true ∧ r.pre < (o r.rid).2 then { r with pre := (o r.rid).2 } else r)

theorem absorb_fst (ext : Bool) (o : Oracle) (l : List Req) : ∀ u, (absorb ext o l u).1 = l.map (adv ext o) := by
  induction l with
  | nil => intro u; rfl
  | cons r l ih =>
    intro u
    rw [absorb, List.map_cons, ih]
    congr 1
    rw [adv, credit]
    split <;> rfl

theorem check_fields (r : Req) : r.check = { r with reason := r.check.reason } := by
  unfold Req.check
  repeat' split
  all_goals rfl

theorem push_fields (t : Int) (r : Req) : push t r = { r with out := r.out ++ [t], seq := r.seq + 1, reason := (push t r).reason } := by
  rw [push, check_fields]

@[simp] theorem adv_rid (ext : Bool) (o : Oracle) (r : Req) : (adv ext o r).rid = r.rid := by
  rw [adv, push_fields]; dsimp only; split <;> rfl
@[simp] theorem adv_inp (ext : Bool) (o : Oracle) (r : Req) : (adv ext o r).inp = r.inp := by
  rw [adv, push_fields]; dsimp only; split <;> rfl
@[simp] theorem adv_maxNew (ext : Bool) (o : Oracle) (r : Req) : (adv ext o r).maxNew = r.maxNew := by
  rw [adv, push_fields]; dsimp only; split <;> rfl
@[simp] theorem adv_stop (ext : Bool) (o : Oracle) (r : Req) : (adv ext o r).stop = r.stop := by
  rw [adv, push_fields]; dsimp only; split <;> rfl
@[simp] theorem adv_stream (ext : Bool) (o : Oracle) (r : Req) : (adv ext o r).stream = r.stream := by
  rw [adv, push_fields]; dsimp only; split <;> rfl
@[simp] theorem adv_seq (ext : Bool) (o : Oracle) (r : Req) : (adv ext o r).seq = r.seq + 1 := by
  rw [adv, push_fields]; dsimp only; split <;> rfl
@[simp] theorem adv_out (ext : Bool) (o : Oracle) (r : Req) : (adv ext o r).out = r.out ++ [(o r.rid).1] := by
  rw [adv, push_fields]; dsimp only; split <;> rfl
@[simp] theorem adv_off (ext : Bool) (o : Oracle) (r : Req) : (adv ext o r).off = r.off := by
  rw [adv, push_fields]; dsimp only; split <;> rfl
theorem adv_pre (ext : Bool) (o : Oracle) (r : Req) : (adv ext o r).pre = if ext then max r.pre (o r.rid).2 else r.pre := by
  rw [adv, push_fields]
  dsimp only
  cases ext
  · simp
  · by_cases h : r.pre < (o r.rid).2
    · simp only [h, and_self, if_true]; omega
    · simp only [h, and_false, if_false, if_true]; omega
theorem adv_reason (ext : Bool) (o : Oracle) (r : Req) (h : r.reason = none) :
    (adv ext o r).reason = if (o r.rid).1 ∈ r.stop then some .eos else if r.maxNew ≤ r.out.length + 1 then some .length else none := by
  have key : ∀ (q : Req) (t : Int), q.reason = none →
      (push t q).reason = if t ∈ q.stop then some .eos else if q.maxNew ≤ q.out.length + 1 then some .length else none := by
    intro q t hq
    unfold push Req.check
    simp only [hq, Option.isSome_none, Bool.false_eq_true, if_false, List.getLast?_append, List.getLast?_singleton, Option.some_or,
      Option.any_some, decide_eq_true_eq, List.length_append, List.length_singleton, Nat.cast_add, Nat.cast_one]
    by_cases h1 : t ∈ q.stop
    · rw [if_pos h1, if_pos h1]
    · rw [if_neg h1, if_neg h1]
      by_cases h2 : q.maxNew ≤ q.out.length + 1
      · rw [if_pos h2, if_pos h2]
      · rw [if_neg h2, if_neg h2]
  unfold adv
  split
  · exact key _ _ h
  · exact key _ _ h

theorem absorb_snd (ext : Bool) (o : Oracle) {l : List Req} (h : ∀ r ∈ l, r.pre ≤ r.seq ∧ (ext = true → (o r.rid).2 ≤ r.seq)) :
    ∀ {v : Int}, 0 ≤ v → (absorb ext o l (charges l + v)).2 = charges (l.map (adv ext o)) + v := by
  induction l with
  | nil => intro v _; simp [absorb]
  | cons r l ih =>
    intro v hv
    have h2 : ∀ q ∈ l, q.pre ≤ q.seq ∧ (ext = true → (o q.rid).2 ≤ q.seq) := fun q hq => h q (List.mem_cons_of_mem _ hq)
    obtain ⟨h1, h1'⟩ := h r List.mem_cons_self
    have h3 := charges_nonneg (fun q hq => (h2 q hq).1)
    rw [absorb, List.map_cons, charges_cons, charges_cons]
    dsimp only
    have e : (credit ext (o r.rid).2 r (charge r + charges l + v)).2 + 1 = charges l + (charge (adv ext o r) + v) := by
      rw [credit, charge, charge, adv_pre, adv_seq]
      cases ext
      · simp only [Bool.false_eq_true, false_and, if_false]; omega
      · have := h1' rfl
        by_cases hp : r.pre < (o r.rid).2
        · simp only [hp, and_self, if_true]; omega
        · simp only [hp, and_false, if_false, if_true]; omega
    rw [e, ih h2]
    · ring
    · rw [charge, adv_pre, adv_seq]
      cases ext
      · simp only [Bool.false_eq_true, if_false]; omega
      · have := h1' rfl
        simp only [if_true]; omega

theorem route_fst (l : List Req) : ∀ u, (route l u).1 = l.filter (fun r => r.reason.isNone) := by
  induction l with
  | nil => intro u; rfl
  | cons r l ih =>
    intro u
    rw [route]
    by_cases hr : r.reason.isSome = true
    · rw [if_pos hr, List.filter_cons_of_neg (by cases h : r.reason <;> simp_all)]
      exact ih _
    · rw [if_neg hr, List.filter_cons_of_pos (by cases h : r.reason <;> simp_all)]
      dsimp only
      rw [ih]

theorem route_msgs (l : List Req) : ∀ u, (route l u).2.1 = (l.filter (fun r => r.reason.isSome)).map Req.final := by
  induction l with
  | nil => intro u; rfl
  | cons r l ih =>
    intro u
    rw [route]
    by_cases hr : r.reason.isSome = true
    · rw [if_pos hr, List.filter_cons_of_pos (by simpa using hr)]
      dsimp only
      rw [ih]; rfl
    · rw [if_neg hr, List.filter_cons_of_neg (by simpa using hr)]
      exact ih _

theorem route_used {l : List Req} (h : ∀ r ∈ l, r.pre ≤ r.seq) : ∀ {v : Int}, 0 ≤ v →
    (route l (charges l + v)).2.2 = charges (l.filter (fun r => r.reason.isNone)) + v := by
  induction l with
  | nil => intro v _; simp [route]
  | cons r l ih =>
    intro v hv
    have h2 : ∀ q ∈ l, q.pre ≤ q.seq := fun q hq => h q (List.mem_cons_of_mem _ hq)
    have h1 := h r List.mem_cons_self
    have h3 := charges_nonneg h2
    rw [route]
    by_cases hr : r.reason.isSome = true
    · rw [if_pos hr, List.filter_cons_of_neg (by cases h : r.reason <;> simp_all), ← ih h2 hv]
      have e : freed (charges (r :: l) + v) r = charges l + v := by
        rw [freed, charges_cons, charge]; omega
      rw [e]
    · rw [if_neg hr, List.filter_cons_of_pos (by cases h : r.reason <;> simp_all)]
      have := ih h2 (v := charge r + v) (by rw [charge]; omega)
      rw [charges_cons, charges_cons]
      have e : charge r + charges l + v = charges l + (charge r + v) := by ring
      simp only [e, this]
      ring

def told (r : Req) : Req := if r.due then { r with off := r.out.length } else r

theorem emit_fst (l : List Req) : (emit l).1 = (l.filter (fun r => r.due)).map Req.chunk := by
  induction l with
  | nil => rfl
  | cons r l ih =>
    rw [emit]
    by_cases hr : r.due
    · rw [if_pos hr, List.filter_cons_of_pos (by simpa using hr), List.map_cons, ih]
    · rw [if_neg hr, List.filter_cons_of_neg (by simpa using hr), ih]

theorem emit_snd (l : List Req) : (emit l).2 = l.map told := by
  induction l with
  | nil => rfl
  | cons r l ih =>
    rw [emit, List.map_cons, told]
    by_cases hr : r.due
    · rw [if_pos hr, if_pos hr, ih]
    · rw [if_neg hr, if_neg hr, ih]

theorem told_fields (r : Req) : told r = { r with off := (told r).off } := by
  unfold told
  split <;> rfl

@[simp] theorem told_rid (r : Req) : (told r).rid = r.rid := by rw [told_fields]
@[simp] theorem told_inp (r : Req) : (told r).inp = r.inp := by rw [told_fields]
@[simp] theorem told_maxNew (r : Req) : (told r).maxNew = r.maxNew := by rw [told_fields]
@[simp] theorem told_stop (r : Req) : (told r).stop = r.stop := by rw [told_fields]
@[simp] theorem told_stream (r : Req) : (told r).stream = r.stream := by rw [told_fields]
@[simp] theorem told_seq (r : Req) : (told r).seq = r.seq := by rw [told_fields]
@[simp] theorem told_pre (r : Req) : (told r).pre = r.pre := by rw [told_fields]
@[simp] theorem told_out (r : Req) : (told r).out = r.out := by rw [told_fields]
@[simp] theorem told_reason (r : Req) : (told r).reason = r.reason := by rw [told_fields]

theorem charges_told (l : List Req) : charges (l.map told) = charges l := by
  induction l with
  | nil => rfl
  | cons r l ih => rw [List.map_cons, charges_cons, charges_cons, ih, charge, charge, told_seq, told_pre]

end Verif.Sched
