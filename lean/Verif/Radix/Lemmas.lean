import Verif.Prelude
import Verif.Radix.Spec
/- Helper lemmas for the radix-tree properties. -/
namespace Verif.Radix

variable {C A : Type}

/-! ### commonLen -/

@[simp] theorem commonLen_nil_left (b : List Int) : commonLen [] b = 0 := by simp [commonLen]
@[simp] theorem commonLen_nil_right (a : List Int) : commonLen a [] = 0 := by
  cases a <;> simp [commonLen]

theorem commonLen_le_left (a b : List Int) : commonLen a b ≤ a.length := by
  induction a generalizing b with
  | nil => simp
  | cons x xs ih => cases b with
    | nil => simp
    | cons y ys => simp only [commonLen]; split <;> simp [ih]

theorem commonLen_comm (a b : List Int) : commonLen a b = commonLen b a := by
  induction a generalizing b with
  | nil => simp
  | cons x xs ih => cases b with
    | nil => simp
    | cons y ys =>
      simp only [commonLen]
      by_cases h : x = y
      · subst h; simp [ih]
      · have : ¬ y = x := fun h' => h h'.symm
        simp [h, this]

theorem commonLen_le_right (a b : List Int) : commonLen a b ≤ b.length := by
  rw [commonLen_comm]; exact commonLen_le_left b a

theorem commonLen_take (a b : List Int) : a.take (commonLen a b) = b.take (commonLen a b) := by
  induction a generalizing b with
  | nil => simp
  | cons x xs ih => cases b with
    | nil => simp
    | cons y ys =>
      simp only [commonLen]
      split
      · next h => subst h; simp [ih]
      · simp

theorem commonLen_pos_iff (x y : Int) (xs ys : List Int) :
    commonLen (x :: xs) (y :: ys) ≠ 0 ↔ x = y := by
  simp only [commonLen]; split <;> simp_all

/-- after the common part the heads differ -/
theorem commonLen_diverge {a b : List Int} {x y : Int} {xs ys : List Int}
    (ha : a.drop (commonLen a b) = x :: xs) (hb : b.drop (commonLen a b) = y :: ys) : x ≠ y := by
  induction a generalizing b with
  | nil => simp at ha
  | cons u us ih => cases b with
    | nil => simp at hb
    | cons v vs =>
      by_cases h : u = v
      · simp only [commonLen, h, if_true, List.drop_succ_cons] at ha hb
        exact ih ha hb
      · simp only [commonLen, h, if_false, List.drop_zero] at ha hb
        simp at ha hb
        omega

theorem commonLen_add (a b : List Int) (n : Nat) (hn : n ≤ a.length) (hb : n ≤ b.length)
    (h : a.take n = b.take n) : commonLen a b = n + commonLen (a.drop n) (b.drop n) := by
  induction n generalizing a b with
  | zero => simp
  | succ n ih =>
    cases a with
    | nil => simp at hn
    | cons x xs => cases b with
      | nil => simp at hb
      | cons y ys =>
        simp at h hn hb
        have hxy := h.1
        subst hxy
        simp only [commonLen, if_true, List.drop_succ_cons]
        rw [ih xs ys hn hb h.2]; omega

theorem commonLen_self (a : List Int) : commonLen a a = a.length := by
  induction a with
  | nil => simp
  | cons x xs ih => simp [commonLen, ih]

theorem prefix_iff_commonLen (n : Nat) (a b : List Int) (hn : n ≤ a.length) :
    a.take n <+: b ↔ n ≤ commonLen a b := by
  constructor
  · rintro ⟨t, rfl⟩
    have := commonLen_add a (a.take n ++ t) n hn (by simp; omega) (by
      rw [List.take_append_of_le_length (by simp; omega)]; simp)
    omega
  · intro h
    have := commonLen_take a b
    have h2 : a.take n = b.take n := by
      have h3 := congrArg (List.take n) this
      simpa [List.take_take, Nat.min_eq_left h] using h3
    rw [h2]; exact List.take_prefix n b

/-! ### Structural predicates -/

/-- No top-level node with extra `e` starts with token `x`. -/
def NoHead : Forest C A → Int → Int → Prop
  | .nil, _, _ => True
  | .cons toks ex _ _ _ rest, e, x => ¬ (ex = e ∧ toks.head? = some x) ∧ NoHead rest e x

/-- All top-level nodes have extra `e`. -/
def AllExtra : Forest C A → Int → Prop
  | .nil, _ => True
  | .cons _ ex _ _ _ rest, e => ex = e ∧ AllExtra rest e

/-- Reachable-tree invariant. -/
def WF : Forest C A → Prop
  | .nil => True
  | .cons toks ex val _ kids rest =>
    toks ≠ [] ∧ (∀ c, (val c).length = toks.length) ∧ WF kids ∧ WF rest ∧
    (∀ x, toks.head? = some x → NoHead rest ex x) ∧ AllExtra kids ex

theorem matchedLength_eq_zero_iff {key toks : List Int} {e ex : Int} (hk : key ≠ []) (ht : toks ≠ []) :
    matchedLength key e toks ex = 0 ↔ ¬ (ex = e ∧ toks.head? = key.head?) := by
  cases key with
  | nil => exact absurd rfl hk
  | cons x xs => cases toks with
    | nil => exact absurd rfl ht
    | cons y ys =>
      unfold matchedLength
      by_cases he : e = ex
      · subst he
        have := commonLen_pos_iff x y xs ys
        simp
        constructor
        · intro h h2; exact absurd h (this.mpr h2.symm)
        · intro h; by_contra h3; exact h (this.mp h3).symm
      · have : ¬ ex = e := fun h => he h.symm
        simp [he, this]

theorem matchedLength_ne_zero {key toks : List Int} {e ex : Int}
    (h : matchedLength key e toks ex ≠ 0) : ex = e ∧ matchedLength key e toks ex = commonLen key toks := by
  unfold matchedLength at *
  by_cases he : e = ex
  · subst he; simp
  · simp [he] at h

/-! ### A uniform view of insertion -/

/-- insertion into a node list (walk, or new leaf if nothing matches) -/
def ins (ok : Bool) (e : Int) (full : C → List A) (f : Forest C A) (m : Nat) (key : List Int) :
    Forest C A :=
  match insWalk ok e full f m key with
  | some t => t
  | none => addLeaf ok e key (fun c => sub m key.length (full c)) f

theorem insertRaw_eq (ok : Bool) (t : Forest C A) (r : Ins C A) (h : r.key ≠ []) :
    insertRaw ok t r = ins ok r.extra r.val t 0 r.key := by
  simp only [insertRaw, ins, h, if_false]
  cases insWalk ok r.extra r.val t 0 r.key <;> rfl

theorem insert_eq (t : Forest C A) (r : Ins C A) (h : r.key ≠ []) :
    insert t r = ins true r.extra r.val t 0 r.key := insertRaw_eq true t r h

theorem ins_nil (ok : Bool) (e : Int) (full : C → List A) (m : Nat) (key : List Int) :
    ins ok e full (.nil : Forest C A) m key =
      if ok then .cons key e (fun c => sub m key.length (full c)) 0 .nil .nil else .nil := by
  simp [ins, insWalk, addLeaf]

theorem ins_skip (ok : Bool) (e : Int) (full : C → List A) (toks ex val ref) (kids rest : Forest C A)
    (m : Nat) (key : List Int) (h : matchedLength key e toks ex = 0) :
    ins ok e full (.cons toks ex val ref kids rest) m key =
      .cons toks ex val ref kids (ins ok e full rest m key) := by
  unfold ins
  simp only [insWalk, h, if_true]
  cases insWalk ok e full rest m key <;> simp [addLeaf]

theorem ins_done (ok : Bool) (e : Int) (full : C → List A) (toks ex val ref) (kids rest : Forest C A)
    (m : Nat) (key : List Int) (h : matchedLength key e toks ex ≠ 0)
    (h2 : key.drop (matchedLength key e toks ex) = []) :
    ins ok e full (.cons toks ex val ref kids rest) m key = .cons toks ex val (ref + 1) kids rest := by
  unfold ins
  simp only [insWalk, h, h2, if_true, if_false]

theorem ins_full (ok : Bool) (e : Int) (full : C → List A) (toks ex val ref) (kids rest : Forest C A)
    (m : Nat) (key : List Int) (h : matchedLength key e toks ex ≠ 0)
    (h2 : key.drop (matchedLength key e toks ex) ≠ [])
    (h3 : ¬ matchedLength key e toks ex < toks.length) :
    ins ok e full (.cons toks ex val ref kids rest) m key =
      .cons toks ex val ref (ins ok e full kids (m + matchedLength key e toks ex)
        (key.drop (matchedLength key e toks ex))) rest := by
  unfold ins
  simp only [insWalk, h, h2, h3, if_false]
  split
  · next h4 => cases hw : insWalk ok e full kids (m + matchedLength key e toks ex)
                  (key.drop (matchedLength key e toks ex)) <;> simp_all
  · next h4 => cases hw : insWalk ok e full kids (m + matchedLength key e toks ex)
                  (key.drop (matchedLength key e toks ex)) <;> simp_all

/-- partial edge match: either the (wrong) descent or the split -/
theorem ins_part (ok : Bool) (e : Int) (full : C → List A) (toks ex val ref) (kids rest : Forest C A)
    (m : Nat) (key : List Int) (h : matchedLength key e toks ex ≠ 0)
    (h2 : key.drop (matchedLength key e toks ex) ≠ [])
    (h3 : matchedLength key e toks ex < toks.length) :
    ins ok e full (.cons toks ex val ref kids rest) m key =
      if (insWalk ok e full kids (m + matchedLength key e toks ex)
        (key.drop (matchedLength key e toks ex))).isSome then
      .cons toks ex val ref (ins ok e full kids (m + matchedLength key e toks ex)
        (key.drop (matchedLength key e toks ex))) rest
      else
      .cons (toks.take (matchedLength key e toks ex)) ex
        (fun c => (val c).take (matchedLength key e toks ex)) ref
        (addLeaf ok e (key.drop (matchedLength key e toks ex))
          (fun c => sub (m + matchedLength key e toks ex)
            (key.drop (matchedLength key e toks ex)).length (full c))
          (.cons (toks.drop (matchedLength key e toks ex)) ex
            (fun c => (val c).drop (matchedLength key e toks ex)) 0 kids .nil)) rest := by
  unfold ins
  simp only [insWalk, h, h2, h3, if_false, if_true]
  cases hw : insWalk ok e full kids (m + matchedLength key e toks ex)
                  (key.drop (matchedLength key e toks ex)) <;> simp

theorem insWalk_none_iff (ok : Bool) (e : Int) (full : C → List A) (f : Forest C A) (m : Nat)
    (x : Int) (xs : List Int) (hf : WF f) :
    insWalk ok e full f m (x :: xs) = none ↔ NoHead f e x := by
  induction f with
  | nil => simp [insWalk, NoHead]
  | cons toks ex val ref kids rest ihk ihr =>
    obtain ⟨ht, hv, hk, hr, hs, he⟩ := hf
    have hz := matchedLength_eq_zero_iff (e := e) (ex := ex) (List.cons_ne_nil x xs) ht
    simp only [insWalk, NoHead]
    by_cases h : matchedLength (x :: xs) e toks ex = 0
    · simp only [h, if_true, Option.map_eq_none_iff, ihr hr]
      have := hz.mp h
      simp only [List.head?_cons] at this
      simp [this]
    · simp only [h, if_false]
      have hz' : ex = e ∧ toks.head? = some x := by
        by_contra hc; exact h (hz.mpr (by simpa using hc))
      constructor
      · intro h4
        split at h4 <;> [simp at h4; skip]
        split at h4 <;> [simp at h4; skip]
        split at h4 <;> simp at h4
      · intro h4; exact absurd hz' h4.1

/-! ### the invariant is preserved -/

theorem NoHead_addLeaf (ok : Bool) (e e' : Int) (x : Int) (key : List Int) (v : C → List A)
    (f : Forest C A) : NoHead (addLeaf ok e key v f) e' x ↔
      NoHead f e' x ∧ (ok = true → ¬ (e = e' ∧ key.head? = some x)) := by
  induction f with
  | nil => cases ok <;> simp [addLeaf, NoHead]
  | cons toks ex val ref kids rest _ ihr => simp only [addLeaf, NoHead, ihr]; tauto

theorem AllExtra_addLeaf (ok : Bool) (e e' : Int) (key : List Int) (v : C → List A)
    (f : Forest C A) : AllExtra (addLeaf ok e key v f) e' ↔ AllExtra f e' ∧ (ok = true → e = e') := by
  induction f with
  | nil => cases ok <;> simp [addLeaf, AllExtra]
  | cons toks ex val ref kids rest _ ihr => simp only [addLeaf, AllExtra, ihr]; tauto

theorem WF_addLeaf (ok : Bool) (e : Int) (x : Int) (xs : List Int) (v : C → List A)
    (f : Forest C A) (hf : WF f) (hn : NoHead f e x)
    (hv : ok = true → ∀ c, (v c).length = (x :: xs).length) : WF (addLeaf ok e (x :: xs) v f) := by
  induction f with
  | nil =>
    cases ok
    · simp [addLeaf, WF]
    · simp only [addLeaf, if_true, WF]
      exact ⟨by simp, hv rfl, trivial, trivial, by simp [NoHead], by simp [AllExtra]⟩
  | cons toks ex val ref kids rest _ ihr =>
    obtain ⟨ht, hv', hk, hr, hs, he⟩ := hf
    obtain ⟨hn1, hn2⟩ := hn
    refine ⟨ht, hv', hk, ihr hr hn2, ?_, he⟩
    intro y hy
    rw [NoHead_addLeaf]
    refine ⟨hs y hy, ?_⟩
    rintro - ⟨h1, h2⟩
    apply hn1
    refine ⟨h1.symm, ?_⟩
    rw [hy]; simpa using h2.symm

theorem head_take_of_pos {l : List Int} {n : Nat} (h : n ≠ 0) : (l.take n).head? = l.head? := by
  cases l <;> cases n <;> simp_all

theorem length_sub (m n : Nat) (xs : List A) (h : m + n ≤ xs.length) : (sub m n xs).length = n := by
  simp [sub]; omega

/-- heads and extras at the top level after insertion -/
theorem NoHead_ins (ok : Bool) (e e' : Int) (full : C → List A) (y : Int) (f : Forest C A) (m : Nat)
    (key : List Int) (hf : WF f) (_hk : key ≠ []) (h : NoHead f e' y)
    (hne : ¬ (e = e' ∧ key.head? = some y)) : NoHead (ins ok e full f m key) e' y := by
  induction f with
  | nil => rw [ins_nil]; cases ok <;> simp [NoHead]; simpa using hne
  | cons toks ex val ref kids rest _ ihr =>
    obtain ⟨ht, hv', hkk, hr, hs, he⟩ := hf
    obtain ⟨hn1, hn2⟩ := h
    by_cases h0 : matchedLength key e toks ex = 0
    · rw [ins_skip _ _ _ _ _ _ _ _ _ _ _ h0]; exact ⟨hn1, ihr hr hn2⟩
    · by_cases h2 : key.drop (matchedLength key e toks ex) = []
      · rw [ins_done _ _ _ _ _ _ _ _ _ _ _ h0 h2]; exact ⟨hn1, hn2⟩
      · by_cases h3 : matchedLength key e toks ex < toks.length
        · rw [ins_part _ _ _ _ _ _ _ _ _ _ _ h0 h2 h3]
          split
          · exact ⟨hn1, hn2⟩
          · refine ⟨?_, hn2⟩
            rw [head_take_of_pos h0]; exact hn1
        · rw [ins_full _ _ _ _ _ _ _ _ _ _ _ h0 h2 h3]; exact ⟨hn1, hn2⟩

theorem AllExtra_ins (ok : Bool) (e : Int) (full : C → List A) (f : Forest C A) (m : Nat)
    (key : List Int) (h : AllExtra f e) : AllExtra (ins ok e full f m key) e := by
  induction f with
  | nil => rw [ins_nil]; cases ok <;> simp [AllExtra]
  | cons toks ex val ref kids rest _ ihr =>
    obtain ⟨h1, h2⟩ := h
    by_cases h0 : matchedLength key e toks ex = 0
    · rw [ins_skip _ _ _ _ _ _ _ _ _ _ _ h0]; exact ⟨h1, ihr h2⟩
    · by_cases h2' : key.drop (matchedLength key e toks ex) = []
      · rw [ins_done _ _ _ _ _ _ _ _ _ _ _ h0 h2']; exact ⟨h1, h2⟩
      · by_cases h3 : matchedLength key e toks ex < toks.length
        · rw [ins_part _ _ _ _ _ _ _ _ _ _ _ h0 h2' h3]
          split <;> exact ⟨h1, h2⟩
        · rw [ins_full _ _ _ _ _ _ _ _ _ _ _ h0 h2' h3]; exact ⟨h1, h2⟩

theorem ml_le_left (key toks : List Int) (e ex : Int) : matchedLength key e toks ex ≤ key.length := by
  unfold matchedLength; split
  · omega
  · exact commonLen_le_left _ _

theorem ml_le_right (key toks : List Int) (e ex : Int) : matchedLength key e toks ex ≤ toks.length := by
  unfold matchedLength; split
  · omega
  · exact commonLen_le_right _ _

theorem WF_ins (ok : Bool) (e : Int) (full : C → List A) (f : Forest C A) (m : Nat)
    (key : List Int) (hf : WF f) (hk : key ≠ [])
    (hlen : ok = true → ∀ c, m + key.length ≤ (full c).length) : WF (ins ok e full f m key) := by
  induction f generalizing m key with
  | nil =>
    rw [ins_nil]; cases ok
    · simp [WF]
    · simp only [if_true, WF]
      refine ⟨hk, ?_, trivial, trivial, by simp [NoHead], by simp [AllExtra]⟩
      intro c; exact length_sub _ _ _ (hlen rfl c)
  | cons toks ex val ref kids rest ihk ihr =>
    have hf' := hf
    obtain ⟨ht, hv', hkk, hr, hs, he⟩ := hf
    have hz := matchedLength_eq_zero_iff (e := e) (ex := ex) hk ht
    have hl1 := ml_le_left key toks e ex
    by_cases h0 : matchedLength key e toks ex = 0
    · rw [ins_skip _ _ _ _ _ _ _ _ _ _ _ h0]
      refine ⟨ht, hv', hkk, ihr m key hr hk hlen, ?_, he⟩
      intro y hy
      apply NoHead_ins _ _ _ _ _ _ _ _ hr hk (hs y hy)
      rintro ⟨h1, h2⟩
      exact hz.mp h0 ⟨h1.symm, by rw [hy, h2]⟩
    · obtain ⟨hee, hml⟩ := matchedLength_ne_zero h0
      subst hee
      by_cases h2 : key.drop (matchedLength key ex toks ex) = []
      · rw [ins_done _ _ _ _ _ _ _ _ _ _ _ h0 h2]; exact hf'
      · have hlen' : ok = true → ∀ c, (m + matchedLength key ex toks ex) +
            (key.drop (matchedLength key ex toks ex)).length ≤ (full c).length := by
          intro hok c; have := hlen hok c; simp; omega
        by_cases h3 : matchedLength key ex toks ex < toks.length
        · rw [ins_part _ _ _ _ _ _ _ _ _ _ _ h0 h2 h3]
          split
          · exact ⟨ht, hv', ihk _ _ hkk h2 hlen', hr, hs, AllExtra_ins _ _ _ _ _ _ he⟩
          · have htake : toks.take (matchedLength key ex toks ex) ≠ [] := by
              intro hc; simp [List.take_eq_nil_iff, h0, ht] at hc
            have hdrop : toks.drop (matchedLength key ex toks ex) ≠ [] := by
              intro hc; simp [List.drop_eq_nil_iff] at hc; omega
            refine ⟨htake, ?_, ?_, hr, ?_, ?_⟩
            · intro c; simp [hv' c]
            · obtain ⟨x, xs, hx⟩ : ∃ x xs, key.drop (matchedLength key ex toks ex) = x :: xs := by
                cases h : key.drop (matchedLength key ex toks ex) with
                | nil => exact absurd h h2
                | cons x xs => exact ⟨x, xs, rfl⟩
              obtain ⟨y, ys, hy⟩ : ∃ x xs, toks.drop (matchedLength key ex toks ex) = x :: xs := by
                cases h : toks.drop (matchedLength key ex toks ex) with
                | nil => exact absurd h hdrop
                | cons x xs => exact ⟨x, xs, rfl⟩
              have hd : x ≠ y := commonLen_diverge (hml ▸ hx) (hml ▸ hy)
              rw [hx]
              apply WF_addLeaf
              · refine ⟨hdrop, ?_, hkk, trivial, by simp [NoHead], he⟩
                intro c; simp [hv' c]
              · simp only [NoHead, and_true, hy, List.head?_cons, not_and, Option.some.injEq]
                intro _; exact fun h => hd h.symm
              · intro hok c
                rw [← hx]
                exact length_sub _ _ _ (hlen' hok c)
            · intro y hy
              rw [head_take_of_pos h0] at hy; exact hs y hy
            · rw [AllExtra_addLeaf]; simp [AllExtra]
        · rw [ins_full _ _ _ _ _ _ _ _ _ _ _ h0 h2 h3]
          exact ⟨ht, hv', ihk _ _ hkk h2 hlen', hr, hs, AllExtra_ins _ _ _ _ _ _ he⟩

theorem WF_insert (t : Forest C A) (r : Ins C A) (ht : WF t) (hr : r.Fits) : WF (insert t r) := by
  by_cases hk : r.key = []
  · simpa [insert, insertRaw, hk] using ht
  · rw [insert_eq t r hk]
    exact WF_ins _ _ _ _ _ _ ht hk (fun _ c => by have := hr c; omega)

theorem foldl_inv {σ α : Type} (f : σ → α → σ) (I : σ → Prop) (P : α → Prop)
    (hstep : ∀ s a, I s → P a → I (f s a)) (l : List α) (s : σ) (hs : I s) (hl : ∀ a ∈ l, P a) :
    I (l.foldl f s) := by
  induction l generalizing s with
  | nil => simpa
  | cons a l ih =>
    exact ih _ (hstep s a hs (hl a (by simp))) (fun b hb => hl b (by simp [hb]))

theorem WF_build (h : List (Ins C A)) (hh : ∀ r ∈ h, r.Fits) : WF (build h) :=
  foldl_inv insert WF Ins.Fits (fun s a hs ha => WF_insert s a hs ha) h .nil trivial hh

end Verif.Radix
