import Verif.Token.Trie
/-
C24: which pieces are cut out.
-/
namespace Verif.Token
variable {χ : Type} [DecidableEq χ]
set_option linter.unusedSectionVars false

/-! ### The trie as a set of words -/

/-- Follow a path. -/
def TNode.walk (t : TNode χ) : List χ → Option (TNode χ)
  | [] => some t
  | c :: p => (t.child c).bind (·.walk p)

theorem walk_append (t : TNode χ) : ∀ (p q : List χ), t.walk (p ++ q) = (t.walk p).bind (·.walk q)
  | [], q => rfl
  | c :: p, q => by
    simp only [List.cons_append, TNode.walk]
    cases t.child c with
    | none => rfl
    | some n => exact walk_append n p q

/-- `t` is a trie of exactly the words `ws`: nodes are the prefixes of words, ends are the words. -/
def IsTrie (t : TNode χ) (P : List χ → Prop) (E : List χ → Prop) : Prop :=
  ∀ p, (match t.walk p with | none => ¬ P p ∧ ¬ E p | some n => P p ∧ (n.isEnd = true ↔ E p))

theorem isTrie_insert : ∀ (w : List χ) (t : TNode χ) (P E : List χ → Prop), IsTrie t P E →
    IsTrie (t.insert w) (fun p => P p ∨ p <+: w) (fun p => E p ∨ p = w)
  | [], .mk e k, P, E, h => by
    intro p
    cases p with
    | nil =>
      simp only [TNode.insert, TNode.walk, TNode.isEnd]
      exact ⟨Or.inr (List.prefix_refl _), by simp⟩
    | cons c p =>
      have h0 := h (c :: p)
      simp only [TNode.insert, TNode.walk, TNode.child] at h0 ⊢
      cases hk : (k c).bind (·.walk p) with
      | none => rw [hk] at h0; simpa using h0
      | some n => rw [hk] at h0; simpa using h0
  | d :: w, .mk e k, P, E, h => by
    have hroot := h []
    simp only [TNode.walk, TNode.isEnd] at hroot
    intro p
    cases p with
    | nil =>
      simp only [TNode.insert, TNode.walk, TNode.isEnd]
      exact ⟨Or.inl hroot.1, by simpa using hroot.2⟩
    | cons c p =>
      simp only [TNode.insert, TNode.walk, TNode.child]
      by_cases hc : c = d
      · subst hc
        simp only [if_true, Option.bind_some]
        have hsub : IsTrie ((k c).getD .empty) (fun q => P (c :: q) ∨ q = []) (fun q => E (c :: q)) := by
          intro q
          have hq := h (c :: q)
          simp only [TNode.walk, TNode.child] at hq
          cases hkc : k c with
          | none =>
            rw [hkc] at hq
            simp only [Option.bind_none] at hq
            cases q with
            | nil => simp [TNode.walk, TNode.empty, TNode.isEnd, hq]
            | cons x q => simp [TNode.walk, TNode.empty, TNode.child, hq]
          | some n =>
            rw [hkc] at hq
            simp only [Option.bind_some] at hq
            simp only [Option.getD_some]
            cases hw : n.walk q with
            | none =>
              rw [hw] at hq
              refine ⟨?_, hq.2⟩
              rintro (h1 | h1)
              · exact hq.1 h1
              · subst h1; simp [TNode.walk] at hw
            | some m => rw [hw] at hq; exact ⟨Or.inl hq.1, hq.2⟩
        have ih := isTrie_insert w _ _ _ hsub p
        cases hw : (TNode.insert w ((k c).getD .empty)).walk p with
        | none =>
          rw [hw] at ih
          simp only at ih
          refine ⟨?_, ?_⟩
          · rintro (hp | hp)
            · exact ih.1 (Or.inl (Or.inl hp))
            · exact ih.1 (Or.inr (by simpa using hp))
          · rintro (hp | hp)
            · exact ih.2 (Or.inl hp)
            · exact ih.2 (Or.inr (by simpa using hp))
        | some n =>
          rw [hw] at ih
          simp only at ih ⊢
          refine ⟨?_, ?_⟩
          · rcases ih.1 with (h1 | h1) | h1
            · exact Or.inl h1
            · right; subst h1; simp
            · right; simpa using h1
          · rw [ih.2]; simp
      · simp only [if_neg hc]
        have hq := h (c :: p)
        simp only [TNode.walk, TNode.child] at hq
        cases hw : (k c).bind (·.walk p) with
        | none =>
          rw [hw] at hq
          simp only at hq ⊢
          refine ⟨?_, ?_⟩
          · rintro (h1 | h1)
            · exact hq.1 h1
            · exact hc (by simpa using (List.cons_prefix_cons.mp h1).1)
          · rintro (h1 | h1)
            · exact hq.2 h1
            · exact hc (by simpa using (List.cons.inj h1).1)
        | some n =>
          rw [hw] at hq
          simp only at hq ⊢
          exact ⟨Or.inl hq.1, by rw [hq.2]; simp [hc]⟩

theorem isTrie_foldl : ∀ (ws : List (List χ)) (t : TNode χ) (P E : List χ → Prop), IsTrie t P E →
    IsTrie (ws.foldl trieAdd t) (fun p => P p ∨ ∃ w ∈ ws, w ≠ [] ∧ p <+: w) (fun p => E p ∨ p ∈ ws ∧ p ≠ [])
  | [], t, P, E, h => by simpa using h
  | w :: ws, t, P, E, h => by
    have h1 : IsTrie (trieAdd t w) (fun p => P p ∨ w ≠ [] ∧ p <+: w) (fun p => E p ∨ p = w ∧ w ≠ []) := by
      unfold trieAdd
      split_ifs with hw
      · simpa [hw] using h
      · have := isTrie_insert w t P E h
        simpa [hw] using this
    have h2 := isTrie_foldl ws _ _ _ h1
    rw [List.foldl_cons]
    intro p
    have h3 := h2 p
    have hP : ((P p ∨ w ≠ [] ∧ p <+: w) ∨ ∃ v ∈ ws, v ≠ [] ∧ p <+: v) ↔ (P p ∨ ∃ v ∈ w :: ws, v ≠ [] ∧ p <+: v) := by
      simp only [List.mem_cons, exists_eq_or_imp]; tauto
    have hE : ((E p ∨ p = w ∧ w ≠ []) ∨ p ∈ ws ∧ p ≠ []) ↔ (E p ∨ p ∈ w :: ws ∧ p ≠ []) := by
      simp only [List.mem_cons]
      constructor
      · rintro ((h | ⟨h, h'⟩) | h)
        · exact Or.inl h
        · exact Or.inr ⟨Or.inl h, by rw [h]; exact h'⟩
        · exact Or.inr ⟨Or.inr h.1, h.2⟩
      · rintro (h | ⟨h | h, h'⟩)
        · exact Or.inl (Or.inl h)
        · exact Or.inl (Or.inr ⟨h, by rw [← h]; exact h'⟩)
        · exact Or.inr ⟨h, h'⟩
    simp only [hP, hE] at h3
    exact h3

/-- The trie after adding `ws`: its nodes are the prefixes of the words, its ends the words. -/
theorem isTrie_trieOf (ws : List (List χ)) :
    IsTrie (trieOf ws) (fun p => p = [] ∨ ∃ w ∈ ws, w ≠ [] ∧ p <+: w) (fun p => p ∈ ws ∧ p ≠ []) := by
  have h0 : IsTrie (TNode.empty : TNode χ) (fun p => p = []) (fun _ => False) := by
    intro p
    cases p with
    | nil => simp [TNode.walk, TNode.empty, TNode.isEnd]
    | cons c p => simp [TNode.walk, TNode.empty, TNode.child]
  have := isTrie_foldl ws _ _ _ h0
  intro p
  have h1 := this p
  simp only [false_or] at h1
  exact h1

/-! ### Specification -/

/-- A finished run of ordinary text becomes a piece, unless it is empty. -/
def flush (acc : List χ) : List (List χ) := if acc = [] then [] else [acc.reverse]

/-- The words matching at the start of `r`. -/
def matchAt (ws : List (List χ)) (r : List χ) : Option (List χ) := ws.find? fun w => w ≠ [] ∧ w <+: r

/-- Left-to-right scan: where a special token starts it is cut out whole, everything between special
tokens is one piece. `acc` is the run of ordinary text read so far, reversed. -/
def greedy (ws : List (List χ)) (acc : List χ) : List χ → List (List χ)
  | [] => flush acc
  | c :: r =>
    match matchAt ws (c :: r) with
    | some w => flush acc ++ w :: greedy ws [] (r.drop (w.length - 1))
    | none => greedy ws (c :: acc) r
termination_by r => r.length
decreasing_by
  all_goals (simp; try omega)

/-- The special tokens of the tokenizers in this repository: every token starts with a delimiter
character that occurs nowhere else in a token (`<|im_start|>`, `<tool_call>`, …). -/
def Delimited (ws : List (List χ)) : Prop :=
  ∃ D : χ → Prop, ∀ w ∈ ws, w ≠ [] → ∃ c t, w = c :: t ∧ D c ∧ ∀ x ∈ t, ¬ D x

/-- No token is a proper prefix of another. -/
def PrefixFree (ws : List (List χ)) : Prop := ∀ v ∈ ws, ∀ w ∈ ws, v ≠ [] → v <+: w → v = w

theorem matchAt_some {ws : List (List χ)} (hpf : PrefixFree ws) {w r : List χ} (hw : w ∈ ws) (h0 : w ≠ [])
    (hp : w <+: r) : matchAt ws r = some w := by
  unfold matchAt
  cases h : ws.find? (fun w => decide (w ≠ [] ∧ w <+: r)) with
  | none =>
    have := List.find?_eq_none.mp h w hw
    simp [h0, hp] at this
  | some v =>
    have hv := List.find?_some h
    have hm := List.mem_of_find?_eq_some h
    simp only [decide_eq_true_eq] at hv
    rcases List.prefix_or_prefix_of_prefix hv.2 hp with h1 | h1
    · rw [hpf v hm w hw hv.1 h1]
    · rw [hpf w hw v hm h0 h1]

theorem matchAt_none {ws : List (List χ)} {r : List χ} (h : ∀ w ∈ ws, w ≠ [] → ¬ w <+: r) :
    matchAt ws r = none := by
  unfold matchAt
  rw [List.find?_eq_none]
  intro w hw
  simp only [decide_eq_true_eq]
  rintro ⟨h1, h2⟩
  exact h w hw h1 h2

theorem greedy_none {ws : List (List χ)} (acc : List χ) (c : χ) (r : List χ)
    (h : ∀ w ∈ ws, w ≠ [] → ¬ w <+: c :: r) : greedy ws acc (c :: r) = greedy ws (c :: acc) r := by
  rw [greedy, matchAt_none h]

/-- Skipping a whole run in which no token starts. -/
theorem greedy_run {ws : List (List χ)} : ∀ (p acc r : List χ),
    (∀ u v, p = u ++ v → v ≠ [] → ∀ w ∈ ws, w ≠ [] → ¬ w <+: v ++ r) →
    greedy ws acc (p ++ r) = greedy ws (p.reverse ++ acc) r
  | [], acc, r, _ => by simp
  | c :: p, acc, r, h => by
    rw [List.cons_append, greedy_none acc c (p ++ r) (h [] (c :: p) rfl (by simp)),
      greedy_run p (c :: acc) r (fun u v huv => h (c :: u) v (by rw [huv]; rfl))]
    simp

theorem greedy_match {ws : List (List χ)} (hpf : PrefixFree ws) (acc w r : List χ) (hw : w ∈ ws) (h0 : w ≠ []) :
    greedy ws acc (w ++ r) = flush acc ++ w :: greedy ws [] r := by
  cases w with
  | nil => exact absurd rfl h0
  | cons c t =>
    have hm : matchAt ws (c :: (t ++ r)) = some (c :: t) :=
      matchAt_some hpf hw h0 ⟨r, by simp⟩
    rw [List.cons_append, greedy, hm]
    simp

/-! ### The automaton -/

theorem cut_piece (text q acc p rest : List χ) (more : List Nat) (ht : text = q ++ acc.reverse ++ p ++ rest)
    (hp : p ≠ []) :
    cut text (q.length :: (q.length + acc.length) :: (q.length + acc.length + p.length) :: more)
      = flush acc ++ p :: cut text ((q.length + acc.length + p.length) :: more) := by
  have hp0 : p.length ≠ 0 := by simpa using hp
  have hne : q.length + acc.length ≠ q.length + acc.length + p.length := by omega
  rw [cut, cut, if_pos hne]
  have h2 : List.take (q.length + acc.length + p.length - (q.length + acc.length))
      (List.drop (q.length + acc.length) text) = p := by
    rw [ht]
    have : q.length + acc.length = (q ++ acc.reverse).length := by simp
    rw [show (q ++ acc.reverse ++ p ++ rest) = (q ++ acc.reverse) ++ (p ++ rest) by simp, this,
      List.drop_left]
    have h3 : (q ++ acc.reverse).length + p.length - (q ++ acc.reverse).length = p.length := by omega
    rw [h3, List.take_left]
  rw [h2]
  unfold flush
  by_cases ha : acc = []
  · subst ha; simp only [List.length_nil, Nat.add_zero, ne_eq, not_true_eq_false, if_false, if_true,
      List.nil_append, List.cons_append]
  · have ha0 : acc.length ≠ 0 := by simpa using ha
    rw [if_pos (by omega), if_neg ha]
    have h3 : List.take (q.length + acc.length - q.length) (List.drop q.length text) = acc.reverse := by
      rw [ht, show (q ++ acc.reverse ++ p ++ rest) = q ++ (acc.reverse ++ (p ++ rest)) by simp, List.drop_left]
      have h4 : q.length + acc.length - q.length = acc.reverse.length := by simp
      rw [h4, List.take_left]
    rw [h3]
    simp

theorem child_walk {root node : TNode χ} {p : List χ} (h : root.walk p = some node) (c : χ) :
    node.child c = root.walk (p ++ [c]) := by
  rw [walk_append, h]
  simp only [Option.bind_some, TNode.walk]
  cases node.child c <;> rfl

theorem walk_some {ws : List (List χ)} {p : List χ} {n : TNode χ} (h : (trieOf ws).walk p = some n) :
    (p = [] ∨ ∃ w ∈ ws, w ≠ [] ∧ p <+: w) ∧ (n.isEnd = true ↔ p ∈ ws ∧ p ≠ []) := by
  have := isTrie_trieOf ws p
  rw [h] at this
  exact this

theorem walk_none {ws : List (List χ)} {p : List χ} (h : (trieOf ws).walk p = none) :
    ∀ w ∈ ws, w ≠ [] → ¬ p <+: w := by
  have := isTrie_trieOf ws p
  rw [h] at this
  intro w hw h0 hp
  exact this.1 (Or.inr ⟨w, hw, h0, hp⟩)

/-- While a partial match dies, no token started inside it. -/
theorem no_match {ws : List (List χ)} (hd : Delimited ws) (hpf : PrefixFree ws) {p r : List χ} {node : TNode χ}
    (hp0 : p ≠ []) (hw : (trieOf ws).walk p = some node) (he : node.isEnd = false)
    (hdead : ∀ c r', r = c :: r' → node.child c = none) :
    ∀ u v, p = u ++ v → v ≠ [] → ∀ w ∈ ws, w ≠ [] → ¬ w <+: v ++ r := by
  obtain ⟨D, hD⟩ := hd
  have hs := walk_some hw
  obtain ⟨w', hw', h0', hpw'⟩ : ∃ w ∈ ws, w ≠ [] ∧ p <+: w := by
    rcases hs.1 with h | h
    · exact absurd h hp0
    · exact h
  have hnend : p ∉ ws := by
    intro h
    have := hs.2.mpr ⟨h, hp0⟩
    rw [he] at this; exact absurd this (by simp)
  intro u v huv hv w hwm hw0 hpre
  cases u with
  | nil =>
    simp only [List.nil_append] at huv
    subst huv
    rcases List.prefix_or_prefix_of_prefix hpre (List.prefix_append p r) with h1 | h1
    · have : w = w' := hpf w hwm w' hw' hw0 (h1.trans hpw')
      subst this
      have : p = w := hpw'.eq_of_length (Nat.le_antisymm hpw'.length_le h1.length_le)
      exact hnend (this ▸ hwm)
    · obtain ⟨t, rfl⟩ := h1
      cases t with
      | nil => simp at hwm; exact hnend hwm
      | cons x t =>
        have h2 : x :: t <+: r := (List.prefix_append_right_inj p).mp hpre
        obtain ⟨r', hr'⟩ := h2
        have h3 := hdead x (t ++ r') (by rw [← hr']; rfl)
        rw [child_walk hw] at h3
        exact walk_none h3 _ hwm hw0 ⟨t, by simp⟩
  | cons c u =>
    obtain ⟨c', t', hct, -, hnD⟩ := hD w' hw' h0'
    cases v with
    | nil => exact hv rfl
    | cons x v =>
      obtain ⟨z, hz⟩ := hpw'
      rw [huv, hct] at hz
      simp only [List.cons_append, List.append_assoc, List.cons.injEq] at hz
      have hx : ¬ D x := hnD x (by rw [← hz.2]; simp)
      obtain ⟨c2, t2, hct2, hD2, -⟩ := hD w hwm hw0
      rw [hct2] at hpre
      have := (List.cons_prefix_cons.mp hpre).1
      exact hx (this ▸ hD2)

/-- The state after starting afresh at `ch`. -/
def startAt (root : TNode χ) (current : Nat) (ch : χ) (offs : List Nat) : SplitSt χ :=
  match root.child ch with
  | some n => ⟨[(current, n)], offs, 0⟩
  | none => ⟨[], offs, 0⟩

theorem splitStep_inr {root : TNode χ} {text : List χ} {current : Nat} {ch : χ} {s : SplitSt χ} {sts : States χ}
    {rem : List Nat} (hsk : s.skip = 0) (h : advance text current ch 0 [] s.states [] = .inr (sts, rem))
    (hf : (sts.filter fun x => x.1 ∉ rem) = []) :
    splitStep root text current ch s = startAt root current ch s.offsets := by
  unfold splitStep startAt
  rw [hsk, if_neg (by omega), h]
  simp only [hf]
  cases root.child ch <;> simp

theorem splitStep_inl {root : TNode χ} {text : List χ} {current : Nat} {ch : χ} {s : SplitSt χ} {a b : Nat}
    (hsk : s.skip = 0) (h : advance text current ch 0 [] s.states [] = .inl (a, b, 0)) :
    splitStep root text current ch s = startAt root current ch (s.offsets ++ [a, b]) := by
  unfold splitStep startAt
  rw [hsk, if_neg (by omega), h]
  cases root.child ch <;> simp

theorem split_run {ws : List (List χ)} (hd : Delimited ws) (hpf : PrefixFree ws) (text : List χ) :
    ∀ (rest : List χ) (s : SplitSt χ) (q acc p : List χ), s.skip = 0 → text = q ++ acc.reverse ++ p ++ rest →
    ((p = [] ∧ s.states = []) ∨
      (p ≠ [] ∧ ∃ node, (trieOf ws).walk p = some node ∧ s.states = [(q.length + acc.length, node)])) →
    ∃ more, endOffsets text (splitLoop (trieOf ws) text (q.length + acc.length + p.length) rest s) = s.offsets ++ more ∧
      (q.length :: more).Pairwise (· ≤ ·) ∧ cut text (q.length :: more) = greedy ws acc (p ++ rest)
  | [], s, q, acc, p, hsk, ht, hst => by
    have hplain : cut text [q.length] = flush (p.reverse ++ acc) := by
      have hl : text.length = q.length + acc.length + p.length := by rw [ht]; simp; omega
      have hdr : text.drop q.length = acc.reverse ++ p := by
        rw [ht, show q ++ acc.reverse ++ p ++ [] = q ++ (acc.reverse ++ p) by simp, List.drop_left]
      unfold cut flush
      by_cases h : p.reverse ++ acc = []
      · rw [if_pos h]
        simp only [List.append_eq_nil_iff, List.reverse_eq_nil_iff] at h
        rw [if_neg]
        rw [hl, h.1, h.2]; simp
      · rw [if_neg h, hdr]
        rw [if_pos]
        · simp
        · intro h2
          apply h
          have h3 : acc.length = 0 := by omega
          have h4 : p.length = 0 := by omega
          simp [List.length_eq_zero_iff.mp h3, List.length_eq_zero_iff.mp h4]
    rcases hst with ⟨rfl, hst⟩ | ⟨hp0, node, hw, hst⟩
    · refine ⟨[], ?_, by simp, ?_⟩
      · simp [splitLoop, endOffsets, hst]
      · rw [hplain]; simp [greedy]
    · cases he : node.isEnd with
      | true =>
        have hpw := ((walk_some hw).2.mp he)
        refine ⟨[q.length + acc.length, text.length], ?_, ?_, ?_⟩
        · simp [splitLoop, endOffsets, hst, he]
        · have : text.length = q.length + acc.length + p.length := by rw [ht]; simp; omega
          simp; omega
        · have hl : text.length = q.length + acc.length + p.length := by rw [ht]; simp; omega
          rw [hl, cut_piece text q acc p [] [] ht hp0, greedy_match hpf acc p [] hpw.1 hpw.2]
          simp [cut, hl, greedy, flush]
      | false =>
        refine ⟨[], ?_, by simp, ?_⟩
        · simp [splitLoop, endOffsets, hst, he]
        · rw [greedy_run p acc [] (no_match hd hpf hp0 hw he (by simp)), hplain]
          simp [greedy]
  | ch :: rest, s, q, acc, p, hsk, ht, hst => by
    -- starting afresh at `ch`
    have hfree : ∀ (offs : List Nat) (q acc : List χ), text = q ++ acc.reverse ++ ch :: rest →
        ∃ more, endOffsets text (splitLoop (trieOf ws) text (q.length + acc.length + 1) rest
            (startAt (trieOf ws) (q.length + acc.length) ch offs)) = offs ++ more ∧
          (q.length :: more).Pairwise (· ≤ ·) ∧ cut text (q.length :: more) = greedy ws acc (ch :: rest) := by
      intro offs q acc ht'
      unfold startAt
      have hroot : (trieOf ws).walk [] = some (trieOf ws) := rfl
      cases hc : (trieOf ws).child ch with
      | some n =>
        have := split_run hd hpf text rest ⟨[(q.length + acc.length, n)], offs, 0⟩ q acc [ch] rfl
          (by rw [ht']; simp) (Or.inr ⟨by simp, n, by rw [child_walk hroot] at hc; simpa using hc, rfl⟩)
        simpa using this
      | none =>
        simp only
        have h1 := split_run hd hpf text rest ⟨[], offs, 0⟩ q (ch :: acc) [] rfl (by rw [ht']; simp) (Or.inl ⟨rfl, rfl⟩)
        have h2 : ∀ w ∈ ws, w ≠ [] → ¬ w <+: ch :: rest := by
          intro w hw hw0 hp
          rw [child_walk hroot] at hc
          have := walk_none hc w hw hw0
          apply this
          cases w with
          | nil => exact absurd rfl hw0
          | cons x w => simp at hp ⊢; exact hp.1.symm
        rw [greedy_none acc ch rest h2]
        simpa [Nat.add_assoc] using h1
    rw [splitLoop]
    rcases hst with ⟨rfl, hst⟩ | ⟨hp0, node, hw, hst⟩
    · rw [splitStep_inr (sts := []) (rem := []) hsk (by rw [hst]; rfl) rfl]
      exact hfree s.offsets q acc (by rw [ht]; simp)
    · cases he : node.isEnd with
      | true =>
        have hpw := ((walk_some hw).2.mp he)
        have hnc : ∀ c, node.child c = none := by
          intro c
          rw [child_walk hw]
          cases hh : (trieOf ws).walk (p ++ [c]) with
          | none => rfl
          | some m =>
            rcases (walk_some hh).1 with h | ⟨w, hw1, hw2, hw3⟩
            · simp at h
            · have h4 : p = w := hpf p hpw.1 w hw1 hp0 ((List.prefix_append p [c]).trans hw3)
              have := hw3.length_le
              rw [← h4] at this; simp at this
        have hra : ∀ (l : List χ) ls la st fin sk, runAhead ls l la node st fin sk = (node, st, fin, sk) := by
          intro l ls la st fin sk
          cases l with
          | nil => rfl
          | cons x l => simp [runAhead, hnc]
        have hadv : advance text (q.length + acc.length + p.length) ch 0 [] s.states []
            = .inl (q.length + acc.length, q.length + acc.length + p.length, 0) := by
          rw [hst]
          simp [advance, he, lookLoop, hra]
        rw [splitStep_inl hsk hadv]
        have h1 := hfree (s.offsets ++ [q.length + acc.length, q.length + acc.length + p.length])
          (q ++ acc.reverse ++ p) [] (by rw [ht]; simp)
        simp only [List.length_append, List.length_reverse, List.length_nil, Nat.add_zero] at h1
        obtain ⟨more, h2, h3, h4⟩ := h1
        refine ⟨(q.length + acc.length) :: (q.length + acc.length + p.length) :: more, ?_, ?_, ?_⟩
        · rw [h2]; simp
        · rw [List.pairwise_cons, List.pairwise_cons]
          refine ⟨?_, ?_, h3⟩
          · intro x hx
            simp only [List.mem_cons] at hx
            rcases hx with rfl | rfl | hx
            · omega
            · omega
            · have := (List.pairwise_cons.mp h3).1 x hx; omega
          · intro x hx
            simp only [List.mem_cons] at hx
            rcases hx with rfl | hx
            · omega
            · have := (List.pairwise_cons.mp h3).1 x hx; omega
        · rw [cut_piece text q acc p (ch :: rest) more ht hp0, greedy_match hpf acc p _ hpw.1 hpw.2, h4]
      | false =>
        cases hc : node.child ch with
        | some n =>
          have hadv : advance text (q.length + acc.length + p.length) ch 0 [] s.states []
              = .inr ([(q.length + acc.length, n)], []) := by
            rw [hst]
            simp [advance, he, hc]
          have hwn : (trieOf ws).walk (p ++ [ch]) = some n := by rw [← child_walk hw]; exact hc
          have hrc : (trieOf ws).child ch = none := by
            have hroot : (trieOf ws).walk [] = some (trieOf ws) := rfl
            cases hh : (trieOf ws).child ch with
            | none => rfl
            | some m =>
              rw [child_walk hroot] at hh
              obtain ⟨D, hD⟩ := hd
              rcases (walk_some hh).1 with h | ⟨w, hw1, hw2, hw3⟩
              · simp at h
              · rcases (walk_some hwn).1 with h | ⟨v, hv1, hv2, hv3⟩
                · simp at h
                · obtain ⟨c, t, rfl, hDc, -⟩ := hD w hw1 hw2
                  obtain ⟨c', t', rfl, -, hnD⟩ := hD v hv1 hv2
                  have e1 : ch = c := by simpa using hw3
                  cases p with
                  | nil => exact absurd rfl hp0
                  | cons y p =>
                    have h5 := (List.cons_prefix_cons.mp hv3).2
                    have h6 : ch ∈ t' := h5.subset (by simp)
                    exact absurd (e1 ▸ hDc) (hnD ch h6)
          have hstep : splitStep (trieOf ws) text (q.length + acc.length + p.length) ch s
              = ⟨[(q.length + acc.length, n)], s.offsets, 0⟩ := by
            unfold splitStep
            rw [hsk, if_neg (by omega), hadv]
            simp [hrc]
          rw [hstep]
          have h1 := split_run hd hpf text rest ⟨[(q.length + acc.length, n)], s.offsets, 0⟩ q acc (p ++ [ch]) rfl
            (by rw [ht]; simp) (Or.inr ⟨by simp, n, hwn, rfl⟩)
          simpa [Nat.add_assoc] using h1
        | none =>
          have hadv : advance text (q.length + acc.length + p.length) ch 0 [] s.states []
              = .inr ([(q.length + acc.length, node)], [q.length + acc.length]) := by
            rw [hst]
            simp [advance, he, hc]
          rw [splitStep_inr hsk hadv (by simp)]
          have h1 := hfree s.offsets q (p.reverse ++ acc) (by rw [ht]; simp)
          rw [greedy_run p acc (ch :: rest) (no_match hd hpf hp0 hw he (by
            intro c r' hr
            rw [← (List.cons.inj hr).1]; exact hc))]
          have hlen : q.length + (p.reverse ++ acc).length = q.length + acc.length + p.length := by simp; omega
          rw [hlen] at h1
          simpa using h1

/-- C24 (partial). If the special tokens are delimited and none is a prefix of another, the text is split
exactly at the occurrences of special tokens, found left to right. -/
theorem split_greedy_partial (ws : List (List χ)) (hd : Delimited ws) (hpf : PrefixFree ws) (text : List χ) :
    trieSplit ws text = greedy ws [] text := by
  obtain ⟨more, h1, h2, h3⟩ := split_run hd hpf text text ⟨[], [0], 0⟩ [] [] [] rfl rfl (Or.inl ⟨rfl, rfl⟩)
  simp only [List.length_nil, Nat.add_zero, List.nil_append] at h1 h2 h3
  unfold trieSplit
  rw [h1, ← h3]
  rw [List.Pairwise.insertionSort_eq (by simpa using h2)]
  rfl

example : Delimited ["<a>".toList, "<b>".toList] ∧ PrefixFree ["<a>".toList, "<b>".toList] := by
  refine ⟨⟨fun c => c = '<', by simp⟩, by simp [PrefixFree]⟩

/-- Every piece of the scan is a special token, or contains no place where a special token starts… and
pieces that are special tokens are exactly the tokens found. Here: what the scan produces, in a case. -/
example : trieSplit ["<a>".toList, "<b>".toList] "x<a<a><b>y".toList
    = ["x<a".toList, "<a>".toList, "<b>".toList, "y".toList] := by decide +kernel

/-- C24 violated in general: a shorter token wins although a longer one matches at the same place. -/
theorem split_longest_violated :
    ∃ (ws : List (List Char)) (text : List Char),
      "abc".toList ∈ ws ∧ "abc".toList <+: text ∧ trieSplit ws text = ["ab".toList, "cdx".toList] :=
  ⟨["ab".toList, "abc".toList, "abcde".toList], "abcdx".toList, by simp, by decide, by decide +kernel⟩

/-- C24 violated in general: a token in the text is not found, because a dead partial match that started
before it takes part in the lookahead. -/
theorem split_misses_token_violated :
    ∃ (ws : List (List Char)) (text : List Char),
      "b".toList ∈ ws ∧ "b".toList <:+: text ∧ trieSplit ws text = [text] :=
  ⟨["abd".toList, "b".toList], "abcd".toList, by simp, ⟨"a".toList, "cd".toList, by decide⟩, by decide +kernel⟩

end Verif.Token
