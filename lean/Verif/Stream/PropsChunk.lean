import Verif.Stream.Spec

namespace Verif.Stream

variable {c : CCfg} {nx : Nat → Int} {d : Int → Str}

theorem checkInc_le (ids : List Int) : ∀ n, checkInc d ids n ≤ n
  | 0 => le_refl _
  | n + 1 => by
    unfold checkInc
    split
    · exact (checkInc_le ids n).trans (Nat.le_succ n)
    · exact le_refl _

theorem decode_append (a b : List Int) : decodeTokens d (a ++ b) = decodeTokens d a ++ decodeTokens d b := by
  simp [decodeTokens]

theorem endsRepl_last {s : Str} {b : Nat} (hb : b ≠ 0xBD) : endsRepl (s ++ [b]) = false := by
  unfold endsRepl
  rw [← Bool.not_eq_true, List.isSuffixOf_iff_suffix]
  rintro ⟨t, ht⟩
  have h1 : (t ++ [0xEF, 0xBF, 0xBD]).getLast? = some 0xBD := by simp
  rw [ht] at h1
  simp at h1
  exact hb h1

/-- The sampled tokens: the next ones of the sequence, no EOS before the last. -/
theorem sample_spec (eos : List Int) : ∀ n k, ∃ m, (sample nx eos n k).1 = (List.range m).map (fun i => nx (k + i)) ∧ m ≤ n ∧
    (∀ i, i + 1 < m → nx (k + i) ∉ eos) ∧
    (((sample nx eos n k).2 = false ∧ m = n ∧ ∀ i, i < m → nx (k + i) ∉ eos) ∨
      ((sample nx eos n k).2 = true ∧ ∃ j, m = j + 1 ∧ nx (k + j) ∈ eos))
  | 0, k => ⟨0, rfl, le_refl _, by intro i hi; omega, Or.inl ⟨rfl, rfl, by intro i hi; omega⟩⟩
  | n + 1, k => by
    unfold sample
    split
    · rename_i h
      exact ⟨1, by simp, by omega, by intro i hi; omega, Or.inr ⟨rfl, 0, rfl, by simpa using h⟩⟩
    · rename_i h
      obtain ⟨m, h1, h2, h3, h4⟩ := sample_spec eos n (k + 1)
      refine ⟨m + 1, ?_, by omega, ?_, ?_⟩
      · rw [List.range_succ_eq_map, List.map_cons, List.map_map, h1]
        show nx k :: _ = nx (k + 0) :: _
        rw [Nat.add_zero]
        congr 1
        apply List.map_congr_left
        intro i _
        show nx (k + 1 + i) = nx (k + (i + 1))
        congr 1; omega
      · intro i hi
        cases i with
        | zero => simpa using h
        | succ i => have := h3 i (by omega); rwa [show k + (i + 1) = k + 1 + i by omega]
      · rcases h4 with ⟨a, b, e⟩ | ⟨a, j, b, e⟩
        · refine Or.inl ⟨a, by omega, ?_⟩
          intro i hi
          cases i with
          | zero => simpa using h
          | succ i => have := e i (by omega); rwa [show k + (i + 1) = k + 1 + i by omega]
        · exact Or.inr ⟨a, j + 1, by omega, by rwa [show k + (j + 1) = k + 1 + j by omega]⟩

/-- Before the end: all tokens so far, none an EOS, have been shown or are held back. -/
structure Running (c : CCfg) (nx : Nat → Int) (d : Int → Str) (i : It) (shown : Str) : Prop where
  isEnd : i.isEnd = false
  fin : i.gen.fin = false
  lt : i.gen.count < c.maxNew
  first : i.gen.first = decide (i.gen.count = 0)
  plain : ∀ j, j < i.gen.count → nx j ∉ c.eos
  text : shown ++ decodeTokens d i.gen.left = decodeTokens d ((List.range i.gen.count).map nx)
  out : i.out.finished = false

theorem running_begin (hm : 1 ≤ c.maxNew) : Running c nx d It.begin [] :=
  ⟨rfl, rfl, hm, rfl, fun _ h => absurd h (Nat.not_lt_zero _), rfl, rfl⟩

theorem range_add_map (a m : Nat) : (List.range (a + m)).map nx = (List.range a).map nx ++ (List.range m).map (fun i => nx (a + i)) := by
  rw [List.range_add, List.map_append, List.map_map]; rfl

/-- One `++it`. -/
theorem advance_spec (hc : 1 ≤ c.chunk) (he : PlainEnd d c.eos) {i : It} {shown : Str} (h : Running c nx d i shown) :
    (Running c nx d (i.advance c nx d) (shown ++ (i.advance c nx d).out.text) ∧
        (i.advance c nx d).out.count = some (i.gen.count + (if i.gen.count = 0 then min c.chunk 3 else c.chunk)) ∧
        (i.advance c nx d).gen.count = i.gen.count + (if i.gen.count = 0 then min c.chunk 3 else c.chunk)) ∨
    ((i.advance c nx d).isEnd = true ∧ (i.advance c nx d).out.finished = true ∧
      ∃ n, IsAnswer nx c.eos c.maxNew ((List.range n).map nx) ∧ (i.advance c nx d).out.count = some n ∧
        (i.gen.count < n ∧ n ≤ i.gen.count + (if i.gen.count = 0 then min c.chunk 3 else c.chunk)) ∧
        shown ++ (i.advance c nx d).out.text = decodeTokens d ((List.range n).map nx)) := by
  obtain ⟨m, s1, s2, s3, s4⟩ := sample_spec (nx := nx) c.eos (chunkSize c i.gen) i.gen.count
  have hsz : chunkSize c i.gen = min (if i.gen.count = 0 then min c.chunk 3 else c.chunk) (c.maxNew - i.gen.count) := by
    unfold chunkSize; rw [h.first]; simp
  have hpos : 1 ≤ chunkSize c i.gen := by
    have := h.lt
    rw [hsz]
    have : 1 ≤ (if i.gen.count = 0 then min c.chunk 3 else c.chunk) := by split <;> omega
    omega
  obtain ⟨r, hr⟩ : ∃ r, r = sample nx c.eos (chunkSize c i.gen) i.gen.count := ⟨_, rfl⟩
  rw [← hr] at s1 s4
  have hlen : r.1.length = m := by rw [s1]; simp
  obtain ⟨comb, hcomb⟩ : ∃ comb, comb = i.gen.left ++ r.1 := ⟨_, rfl⟩
  have hve := checkInc_le (d := d) comb comb.length
  obtain ⟨ve, hvee⟩ : ∃ ve, ve = checkInc d comb comb.length := ⟨_, rfl⟩
  rw [← hvee] at hve
  have hall : shown ++ decodeTokens d comb = decodeTokens d ((List.range (i.gen.count + m)).map nx) := by
    rw [hcomb, decode_append, ← List.append_assoc, h.text, ← decode_append, range_add_map, s1]
  have hsplit : decodeTokens d (comb.take ve) ++ decodeTokens d (comb.drop ve) = decodeTokens d comb := by
    rw [← decode_append, List.take_append_drop]
  have htext : (if 0 < ve then decodeTokens d (comb.take ve) else []) = decodeTokens d (comb.take ve) := by
    split
    · rfl
    · rw [show ve = 0 by omega]; rfl
  obtain ⟨fin, hfin⟩ : ∃ fin, fin = (r.2 || decide (c.maxNew ≤ i.gen.count + r.1.length)) := ⟨_, rfl⟩
  have hadv : i.advance c nx d =
      ⟨⟨comb.drop ve, i.gen.count + m, i.gen.first && decide (r.1.length ≤ 1) && r.2 || i.gen.first && decide (r.1 = []), fin⟩, fin,
       ⟨if fin && decide (comb.drop ve ≠ []) && !r.2 then decodeTokens d (comb.take ve) ++ decodeTokens d (comb.drop ve)
          else decodeTokens d (comb.take ve), fin, some (i.gen.count + m)⟩⟩ := by
    unfold It.advance nextChunk
    rw [if_neg (by simp [h.isEnd]), if_neg (by simp [h.fin]), if_neg (by have := h.lt; omega)]
    rw [hlen] at hfin
    simp only [← hr, ← hcomb, ← hvee, htext, hlen, ← hfin, h.fin, Bool.false_or, Bool.not_true]
  rw [hadv]
  dsimp only
  have hlt := h.lt
  by_cases hf : fin = true
  · right
    refine ⟨hf, hf, i.gen.count + m, ?_, rfl, ?_, ?_⟩
    · refine ⟨by simp, ?_, ?_, ?_⟩
      · rw [List.length_map, List.length_range]; omega
      · intro j hj
        rw [List.length_map, List.length_range] at hj
        by_cases hjc : j < i.gen.count
        · exact h.plain j hjc
        · have := s3 (j - i.gen.count) (by omega)
          rwa [show i.gen.count + (j - i.gen.count) = j by omega] at this
      · rw [List.length_map, List.length_range]
        rcases s4 with ⟨a, b, e⟩ | ⟨a, j, b, e⟩
        · left
          rw [hfin, a, hlen] at hf
          simp at hf
          omega
        · exact Or.inr ⟨i.gen.count + j, by omega, e⟩
    · have : m ≠ 0 := by
        rcases s4 with ⟨a, b, e⟩ | ⟨a, j, b, e⟩ <;> omega
      rw [hsz] at s2
      constructor <;> omega
    · rw [← hall, ← hsplit, hf, Bool.true_and]
      rcases s4 with ⟨a, b, e⟩ | ⟨a, j, b, e⟩
      · rw [a]
        by_cases hd : comb.drop ve = []
        · rw [hd]; simp [decodeTokens]
        · simp [hd]
      · -- an EOS: nothing is held back
        have hlast : comb = (i.gen.left ++ (List.range j).map (fun x => nx (i.gen.count + x))) ++ [nx (i.gen.count + j)] := by
          rw [hcomb, s1, b, List.range_succ, List.map_append, List.append_assoc]; rfl
        obtain ⟨x, y, hx, hy⟩ := he _ e
        have hend : endsRepl (decodeTokens d comb) = false := by
          rw [hlast, decode_append]
          have : decodeTokens d [nx (i.gen.count + j)] = x ++ [y] := by simp [decodeTokens, hx]
          rw [this, ← List.append_assoc]
          exact endsRepl_last hy
        have : ve = comb.length := by
          rw [hvee]
          cases hl : comb.length with
          | zero => rfl
          | succ n =>
            unfold checkInc
            rw [← hl, List.take_length, hend]
            simp
        rw [this, List.drop_length, List.take_length]
        simp [decodeTokens]
  · rw [Bool.not_eq_true] at hf
    left
    have hr2 : r.2 = false := by rw [hfin] at hf; simp at hf; exact hf.1
    have hlt2 : i.gen.count + m < c.maxNew := by rw [hfin, hlen] at hf; simp at hf; omega
    rcases s4 with ⟨a, b, e⟩ | ⟨a, _⟩
    swap
    · rw [hr2] at a; cases a
    have hm : m = if i.gen.count = 0 then min c.chunk 3 else c.chunk := by rw [b, hsz]; rw [b, hsz] at hlt2; omega
    refine ⟨⟨hf, hf, hlt2, ?_, ?_, ?_, hf⟩, by rw [hm], by rw [hm]⟩
    · have : r.1 ≠ [] := by intro h0; rw [h0] at hlen; simp at hlen; omega
      rw [hr2]
      simp only [Bool.and_false, Bool.false_or, decide_eq_false this]
      symm
      rw [decide_eq_false_iff_not]
      show ¬ i.gen.count + m = 0
      omega
    · intro j hj
      by_cases hjc : j < i.gen.count
      · exact h.plain j hjc
      · have hj' : j < i.gen.count + m := hj
        have := e (j - i.gen.count) (by omega)
        rwa [show i.gen.count + (j - i.gen.count) = j by omega] at this
    · dsimp only
      rw [hf]
      simp only [Bool.false_and, Bool.false_eq_true, if_false]
      rw [List.append_assoc, hsplit, hall]

/-- Running from any state before the end. -/
theorem run_spec (hc : 1 ≤ c.chunk) (he : PlainEnd d c.eos) : ∀ (fuel : Nat) (i : It) (shown : Str), Running c nx d i shown →
    c.maxNew - i.gen.count ≤ fuel →
    ∃ outs : List COut, Produces (It.advance c nx d) It.isEnd It.out i outs ∧ 1 ≤ outs.length ∧
      (∃ ts, IsAnswer nx c.eos c.maxNew ts ∧ shown ++ (outs.map COut.text).flatten = decodeTokens d ts ∧
        (∀ o, outs.getLast? = some o → o.count = some ts.length ∧ ((∀ t, d t ≠ []) → o.text ≠ [])) ∧ i.gen.count < ts.length) ∧
      (∀ j o, outs[j]? = some o → (o.finished = true ↔ j + 1 = outs.length)) ∧
      (∀ j o, outs[j]? = some o → j + 1 < outs.length →
        o.count = some ((if i.gen.count = 0 then min c.chunk 3 else i.gen.count + c.chunk) + j * c.chunk))
  | 0, i, shown => by
    intro h hf
    have := h.lt
    omega
  | fuel + 1, i, shown => by
    intro h hf
    have hlt := h.lt
    rcases advance_spec hc he h with ⟨h1, h2, h2'⟩ | ⟨h1, h2, n, h3, h4, ⟨h5, _⟩, h6⟩
    · have hcnt : i.gen.count < (i.advance c nx d).gen.count := by rw [h2']; split <;> omega
      obtain ⟨outs, ⟨p1, p2, p3⟩, q, ⟨ts, a1, a2, a3, a4⟩, b, e⟩ := run_spec hc he fuel _ _ h1 (by omega)
      refine ⟨(i.advance c nx d).out :: outs, ⟨?_, ?_, ?_⟩, by simp, ⟨ts, a1, ?_, ?_, by omega⟩, ?_, ?_⟩
      · rw [List.length_cons, List.range_succ_eq_map, List.map_cons, List.map_map]
        congr 1
      · intro j hj
        cases j with
        | zero => exact h.isEnd
        | succ j => exact p2 j (by simpa using hj)
      · exact p3
      · rw [List.map_cons, List.flatten_cons, ← List.append_assoc]; exact a2
      · intro o ho
        cases outs with
        | nil => simp at q
        | cons x xs =>
          exact a3 o (by rw [List.getLast?_cons_cons] at ho; exact ho)
      · intro j o ho
        cases j with
        | zero =>
          simp at ho
          rw [← ho, h1.out]
          simp
          intro h0; rw [h0] at q; simp at q
        | succ j =>
          rw [List.getElem?_cons_succ] at ho
          rw [b j o ho, List.length_cons]
          omega
      · intro j o ho hj
        cases j with
        | zero =>
          simp at ho
          rw [← ho, h2]
          congr 1
          split <;> omega
        | succ j =>
          rw [List.getElem?_cons_succ] at ho
          rw [e j o ho (by simpa using hj), h2', if_neg (by split <;> omega)]
          congr 1
          split <;> simp only [Nat.add_mul] <;> omega
    · refine ⟨[(i.advance c nx d).out], ⟨rfl, ?_, h1⟩, by simp, ⟨_, h3, ?_, ?_, by simpa using h5⟩, ?_, ?_⟩
      · intro j hj
        have : j = 0 := by simpa using hj
        subst this
        exact h.isEnd
      · simpa using h6
      · intro o ho
        simp at ho
        rw [← ho]
        refine ⟨by rw [h4]; simp, ?_⟩
        intro hd h0
        rw [h0, List.append_nil, show n = i.gen.count + (n - i.gen.count) by omega, range_add_map, decode_append, ← h.text] at h6
        have hl := congrArg List.length h6
        obtain ⟨k, hk⟩ : ∃ k, n - i.gen.count = k + 1 := ⟨n - i.gen.count - 1, by omega⟩
        rw [hk, List.range_succ_eq_map, List.map_cons] at hl
        have hne : 0 < (d (nx (i.gen.count + 0))).length := List.length_pos_iff.mpr (hd _)
        unfold decodeTokens at hl
        rw [List.flatMap_cons] at hl
        simp only [List.length_append] at hl
        omega
      · intro j o ho
        cases j with
        | zero => simp at ho; rw [← ho, h2]; simp
        | succ j => simp at ho
      · intro j o _ hj
        simp at hj

/-- **C146.**  Calling `++it` until the end shows the whole answer: the texts of the chunks, in order, are the text of the
model's tokens up to and including the first EOS or the limit; only the last chunk is marked finished and carries the
number of tokens; the first chunk comes after at most three tokens, the others after `chunk_size` tokens each.  The
condition on the EOS text (it exists and does not end in byte BD) holds for every printable EOS. -/
theorem C146_chunks (hc : 1 ≤ c.chunk) (hm : 1 ≤ c.maxNew) (he : PlainEnd d c.eos) :
    ∃ outs ts, Produces (It.advance c nx d) It.isEnd It.out It.begin outs ∧ IsAnswer nx c.eos c.maxNew ts ∧
      (outs.map COut.text).flatten = decodeTokens d ts ∧
      (∀ j o, outs[j]? = some o → (o.finished = true ↔ j + 1 = outs.length)) ∧
      (∀ o, outs.getLast? = some o → o.count = some ts.length) ∧
      (∀ j o, outs[j]? = some o → j + 1 < outs.length → o.count = some (min c.chunk 3 + j * c.chunk)) := by
  obtain ⟨outs, h1, _, ⟨ts, h2, h3, h4, _⟩, h5, h6⟩ := run_spec hc he c.maxNew It.begin [] (running_begin hm) (by omega)
  exact ⟨outs, ts, h1, h2, by simpa using h3, h5, fun o ho => (h4 o ho).1, h6⟩

theorem answer_unique {eos : List Int} {n : Nat} {a b : List Int} (ha : IsAnswer nx eos n a) (hb : IsAnswer nx eos n b) : a = b := by
  obtain ⟨a1, a2, a3, a4⟩ := ha
  obtain ⟨b1, b2, b3, b4⟩ := hb
  have : a.length = b.length := by
    by_contra hne
    rcases Nat.lt_or_gt_of_ne hne with h | h
    · rcases a4 with h' | ⟨i, h', h''⟩
      · omega
      · exact b3 i (by omega) h''
    · rcases b4 with h' | ⟨i, h', h''⟩
      · omega
      · exact a3 i (by omega) h''
  rw [a1, b1, this]

/-- Visiting with a range-based `for`: the initial output and all produced ones but the last. -/
theorem visits_of {σ β : Type} {adv : σ → σ} {isEnd : σ → Bool} {cur : σ → β} : ∀ (outs : List β) (s : σ),
    Produces adv isEnd cur s outs → 1 ≤ outs.length → ∀ fuel, outs.length ≤ fuel →
    visits adv isEnd cur fuel s = some (cur s :: outs.dropLast)
  | [], s => by intro _ h; simp at h
  | [x], s => by
    intro ⟨h1, h2, h3⟩ _ fuel hf
    obtain ⟨n, rfl⟩ : ∃ n, fuel = n + 1 := ⟨fuel - 1, by simp at hf; omega⟩
    unfold visits
    rw [if_neg (by rw [show isEnd s = false from h2 0 (by simp)]; simp)]
    have h3' : isEnd (adv s) = true := h3
    cases n <;> simp [visits, h3']
  | x :: y :: r, s => by
    intro ⟨h1, h2, h3⟩ _ fuel hf
    obtain ⟨n, rfl⟩ : ∃ n, fuel = n + 1 := ⟨fuel - 1, by simp at hf; omega⟩
    have hx : x = cur (adv s) ∧ y :: r = (List.range (r.length + 1)).map (fun i => cur (adv^[i + 1] (adv s))) := by
      rw [List.length_cons, List.range_succ_eq_map, List.map_cons, List.map_map] at h1
      injection h1 with e1 e2
      exact ⟨e1, e2⟩
    have hp : Produces adv isEnd cur (adv s) (y :: r) :=
      ⟨hx.2, fun i hi => h2 (i + 1) (by simp at hi ⊢; omega), h3⟩
    unfold visits
    rw [if_neg (by rw [show isEnd s = false from h2 0 (by simp)]; simp),
      visits_of (y :: r) (adv s) hp (by simp) n (by simp at hf ⊢; omega), List.dropLast_cons_cons, hx.1]
    rfl

/-- **C147, violated** (the text chunks).  The documented loop `for (auto& output : chunk_gen)` first shows an output
that was never generated (empty, its token count uninitialised), and never the last chunk: what it shows is the text
of the answer without a last part, which is not empty; for answers of up to three tokens it shows nothing. -/
theorem C147_chunk_loop_violated (hc : 1 ≤ c.chunk) (hm : 1 ≤ c.maxNew) (he : PlainEnd d c.eos) {ts : List Int}
    (ht : IsAnswer nx c.eos c.maxNew ts) :
    ∃ seen last n, (∀ fuel, n ≤ fuel → visits (It.advance c nx d) It.isEnd It.out fuel It.begin = some seen) ∧
      seen.head? = some ⟨[], false, none⟩ ∧ (∀ o ∈ seen, o.finished = false) ∧
      (seen.map COut.text).flatten ++ last = decodeTokens d ts ∧ ((∀ t, d t ≠ []) → last ≠ []) ∧
      (ts.length ≤ min c.chunk 3 → (seen.map COut.text).flatten = []) := by
  obtain ⟨outs, h1, hl, ⟨ts', h2, h3, h4, _⟩, h5, h6⟩ := run_spec (nx := nx) hc he c.maxNew It.begin [] (running_begin hm) (by omega)
  have hts : ts' = ts := answer_unique h2 ht
  subst hts
  obtain ⟨init, x, hx⟩ : ∃ init x, outs = init ++ [x] := by
    rcases List.eq_nil_or_concat outs with h | ⟨a, b, h⟩
    · rw [h] at hl; simp at hl
    · exact ⟨a, b, by rw [h, List.concat_eq_append]⟩
  have hdl : outs.dropLast = init := by rw [hx]; simp
  refine ⟨It.begin.out :: init, x.text, outs.length, ?_, rfl, ?_, ?_, ?_, ?_⟩
  · intro fuel hf
    rw [visits_of outs It.begin h1 hl fuel hf, hdl]
  · intro o ho
    rcases List.mem_cons.mp ho with rfl | ho
    · rfl
    · obtain ⟨j, hj, rfl⟩ := List.mem_iff_getElem.mp ho
      have := h5 j init[j] (by rw [hx, List.getElem?_append_left hj, List.getElem?_eq_getElem hj])
      rw [hx, List.length_append] at this
      rw [← Bool.not_eq_true, this]
      simp
      omega
  · rw [← h3, hx]
    simp [It.begin]
  · exact (h4 x (by rw [hx]; simp)).2
  · intro hle
    cases init with
    | nil => rfl
    | cons y ys =>
      exfalso
      -- the state after the first chunk is still running
      have hout : y = (It.begin.advance c nx d).out := by
        have := h1.1
        rw [hx] at this
        rw [List.cons_append, List.length_cons, List.range_succ_eq_map, List.map_cons] at this
        injection this
      rcases advance_spec hc he (running_begin (nx := nx) (d := d) hm) with ⟨r1, r2, r3⟩ | ⟨r1, r2, _⟩
      · obtain ⟨outs2, _, _, ⟨ts2, k1, _, _, k2⟩, _⟩ := run_spec (nx := nx) hc he c.maxNew _ _ r1 (by omega)
        rw [answer_unique k1 h2, r3] at k2
        have : It.begin.gen.count = 0 := rfl
        rw [this, if_pos rfl] at k2
        omega
      · have := (h5 0 y (by rw [hx]; rfl)).mp (by rw [hout]; exact r2)
        rw [hx] at this
        simp at this

/-- **C146, violated** (terminators).  An answer that ends with an EOS shows the text of the EOS token to the user. -/
theorem C146_eos_shown_violated (hc : 1 ≤ c.chunk) (hm : 1 ≤ c.maxNew) (he : PlainEnd d c.eos) {k : Nat} (hk : k < c.maxNew)
    (h0 : ∀ i, i < k → nx i ∉ c.eos) (h1 : nx k ∈ c.eos) :
    ∃ outs o, Produces (It.advance c nx d) It.isEnd It.out It.begin outs ∧ outs.getLast? = some o ∧
      (outs.map COut.text).flatten = decodeTokens d ((List.range k).map nx) ++ d (nx k) ∧ d (nx k) ≠ [] := by
  obtain ⟨outs, ts, a1, a2, a3, a4, a5, a6⟩ := C146_chunks (nx := nx) hc hm he
  have hts : ts = (List.range (k + 1)).map nx := by
    apply answer_unique a2
    refine ⟨by simp, by simp; omega, ?_, Or.inr ⟨k, by simp, h1⟩⟩
    intro i hi
    exact h0 i (by simpa using hi)
  have hne : outs ≠ [] := by
    rintro rfl
    have := a1.2.2
    simp [It.begin] at this
  refine ⟨outs, outs.getLast hne, a1, List.getLast?_eq_some_getLast hne, ?_, ?_⟩
  · rw [a3, hts, List.range_succ, List.map_append, decode_append]
    simp [decodeTokens]
  · obtain ⟨x, b, e, _⟩ := he _ h1
    rw [e]; simp

/-! ### Characters that are split over tokens -/

theorem decode_conts : ∀ {s : List Nat}, (∀ b ∈ s, b &&& 0xC0 = 0x80) → Token.decode s = []
  | [], _ => by unfold Token.decode; rfl
  | b :: r, h => by
    have hb := h b (by simp)
    have h1 : ¬ (b &&& 0x80 = 0) := by
      intro h0
      have : (b &&& 0xC0) &&& 0x80 = 0 := by rw [Nat.and_assoc]; simpa using h0
      rw [hb] at this
      simp at this
    have mask : ∀ m v, m &&& 0xC0 = 0xC0 → v &&& 0xC0 ≠ 0x80 → ¬ (b &&& m = v) := by
      intro m v hm hv h0
      apply hv
      rw [← h0, Nat.and_assoc, hm, hb]
    unfold Token.decode
    simp only [if_neg h1, if_neg (mask 0xE0 0xC0 (by decide) (by decide)), if_neg (mask 0xF0 0xE0 (by decide) (by decide)),
      if_neg (mask 0xF8 0xF0 (by decide) (by decide))]
    exact decode_conts (fun x hx => h x (by simp [hx]))

theorem mask_lead {v m k x : Nat} (h1 : v &&& k = v) (h2 : m &&& k = 0) : (v ||| (x &&& m)) &&& k = v := by
  rw [Nat.and_or_distrib_right, h1, Nat.and_assoc, h2]; simp

theorem cont_byte (x : Nat) : (0x80 ||| (x &&& 0x3F)) &&& 0xC0 = 0x80 := mask_lead (by decide) (by decide)

theorem not_ascii {b k v : Nat} (h : b &&& k = v) (hk : k &&& 0x80 = 0x80) (hv : v &&& 0x80 ≠ 0) : ¬ b &&& 0x80 = 0 := by
  intro h0
  apply hv
  rw [← h, Nat.and_assoc, hk, h0]

/-- A character of several bytes: the last bytes decode to nothing, and so do the first ones. -/
theorem split_char {wc : Nat} (h1 : 0x7F < wc) (h2 : wc ≤ 0x10FFFF) {x y : List Nat} (h : Token.enc1 wc = x ++ y) (hx : x ≠ []) (hy : y ≠ []) :
    Token.decode x = [] ∧ Token.decode y = [] := by
  unfold Token.enc1 at h
  rw [if_neg (by omega)] at h
  split_ifs at h with h3 h4
  · -- two bytes
    obtain ⟨a, rfl⟩ : ∃ a, x = [a] := by
      have hl := congrArg List.length h
      have := List.length_pos_iff.mpr hx; have := List.length_pos_iff.mpr hy
      simp at hl
      exact List.length_eq_one_iff.mp (by omega)
    simp only [List.cons_append, List.nil_append, List.cons.injEq] at h
    obtain ⟨ha, hyy⟩ := h
    have hlead : a &&& 0xE0 = 0xC0 := by rw [← ha]; exact mask_lead (by decide) (by decide)
    constructor
    · unfold Token.decode
      simp only [if_neg (not_ascii hlead (by decide) (by decide)), if_pos hlead]
    · apply decode_conts
      intro b hb
      rw [← hyy] at hb
      rw [List.mem_singleton.mp hb]; exact cont_byte _
  · -- three bytes
    obtain ⟨a, r, rfl⟩ : ∃ a r, x = a :: r := by cases x with | nil => exact absurd rfl hx | cons a r => exact ⟨a, r, rfl⟩
    simp only [List.cons_append, List.cons.injEq] at h
    obtain ⟨ha, hr⟩ := h
    have hlead : a &&& 0xF0 = 0xE0 := by rw [← ha]; exact mask_lead (by decide) (by decide)
    have n1 := not_ascii hlead (by decide) (by decide)
    have n2 : ¬ a &&& 0xE0 = 0xC0 := by
      intro h0
      have : (a &&& 0xF0) &&& 0xE0 = 0xC0 := by rw [Nat.and_assoc]; simpa using h0
      rw [hlead] at this; simp at this
    have hl := congrArg List.length hr
    have hyl := List.length_pos_iff.mpr hy
    simp at hl
    constructor
    · match r, hl with
      | [], _ => unfold Token.decode; simp only [if_neg n1, if_neg n2, if_pos hlead]
      | [_], _ => unfold Token.decode; simp only [if_neg n1, if_neg n2, if_pos hlead]
      | _ :: _ :: r', hl => simp at hl; omega
    · apply decode_conts
      intro b hb
      have hb' : b ∈ r ++ y := List.mem_append_right _ hb
      rw [← hr] at hb'
      simp only [List.mem_cons, List.not_mem_nil, or_false] at hb'
      rcases hb' with rfl | rfl <;> exact cont_byte _
  · -- four bytes
    obtain ⟨a, r, rfl⟩ : ∃ a r, x = a :: r := by cases x with | nil => exact absurd rfl hx | cons a r => exact ⟨a, r, rfl⟩
    simp only [List.cons_append, List.cons.injEq] at h
    obtain ⟨ha, hr⟩ := h
    have hlead : a &&& 0xF8 = 0xF0 := by rw [← ha]; exact mask_lead (by decide) (by decide)
    have n1 := not_ascii hlead (by decide) (by decide)
    have n2 : ¬ a &&& 0xE0 = 0xC0 := by
      intro h0
      have : (a &&& 0xF8) &&& 0xE0 = 0xC0 := by rw [Nat.and_assoc]; simpa using h0
      rw [hlead] at this; simp at this
    have n3 : ¬ a &&& 0xF0 = 0xE0 := by
      intro h0
      have : (a &&& 0xF8) &&& 0xF0 = 0xE0 := by rw [Nat.and_assoc]; simpa using h0
      rw [hlead] at this; simp at this
    have hl := congrArg List.length hr
    have hyl := List.length_pos_iff.mpr hy
    simp at hl
    constructor
    · match r, hl with
      | [], _ => unfold Token.decode; simp only [if_neg n1, if_neg n2, if_neg n3, if_pos hlead]
      | [_], _ => unfold Token.decode; simp only [if_neg n1, if_neg n2, if_neg n3, if_pos hlead]
      | [_, _], _ => unfold Token.decode; simp only [if_neg n1, if_neg n2, if_neg n3, if_pos hlead]
      | _ :: _ :: _ :: r', hl => simp at hl; omega
    · apply decode_conts
      intro b hb
      have hb' : b ∈ r ++ y := List.mem_append_right _ hb
      rw [← hr] at hb'
      simp only [List.mem_cons, List.not_mem_nil, or_false] at hb'
      rcases hb' with rfl | rfl | rfl <;> exact cont_byte _

/-- **C146, violated** (characters).  A character of several bytes whose bytes the vocabulary spreads over two tokens vanishes
from the text: each token is converted to a string by itself, which drops the incomplete bytes, so the search for incomplete
characters in the chunks never sees one.  `bytes t` are the bytes of token `t`. -/
theorem C146_split_character_violated {bytes : Int → List Nat} (hd : ∀ t, d t = Token.encode (Token.decode (bytes t))) (hc : 1 ≤ c.chunk)
    (hm : 1 ≤ c.maxNew) (he : PlainEnd d c.eos) {p q : List Int} {t u : Int} (ha : IsAnswer nx c.eos c.maxNew (p ++ [t, u] ++ q))
    {wc : Nat} (h1 : 0x7F < wc) (h2 : wc ≤ 0x10FFFF) (hb : bytes t ++ bytes u = Token.enc1 wc) (ht : bytes t ≠ []) (hu : bytes u ≠ []) :
    ∃ outs, Produces (It.advance c nx d) It.isEnd It.out It.begin outs ∧
      (outs.map COut.text).flatten = decodeTokens d p ++ decodeTokens d q := by
  obtain ⟨outs, ts, a1, a2, a3, _⟩ := C146_chunks (nx := nx) hc hm he
  refine ⟨outs, a1, ?_⟩
  obtain ⟨s1, s2⟩ := split_char h1 h2 hb.symm ht hu
  rw [a3, answer_unique a2 ha, decode_append, decode_append]
  have : decodeTokens d [t, u] = [] := by
    simp [decodeTokens, hd, s1, s2, Token.encode]
  rw [this, List.append_nil]

end Verif.Stream
