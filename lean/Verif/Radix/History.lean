import Verif.Radix.Refine
/- Lifting the one-step lemmas to histories. -/
namespace Verif.Radix

variable {C A : Type}

theorem WF_insertRaw (ok : Bool) (t : Forest C A) (r : Ins C A) (ht : WF t)
    (hr : ok = true → r.Fits) : WF (insertRaw ok t r) := by
  by_cases hk : r.key = []
  · simpa [insertRaw, hk] using ht
  · rw [insertRaw_eq ok t r hk]
    exact WF_ins _ _ _ _ _ _ ht hk (fun hok c => by have := hr hok c; omega)

theorem WF_buildThrow (h : List (Bool × Ins C A)) (hh : OkHist h) : WF (buildThrow h) :=
  foldl_inv (fun (t : Forest C A) (x : Bool × Ins C A) => insertRaw x.1 t x.2) WF (fun x : Bool × Ins C A => x.1 = true → x.2.Fits)
    (fun s a hs ha => WF_insertRaw _ s _ hs ha) h .nil trivial hh

theorem buildThrow_snoc (h : List (Bool × Ins C A)) (x : Bool × Ins C A) :
    buildThrow (h ++ [x]) = insertRaw x.1 (buildThrow h) x.2 := by
  simp [buildThrow, List.foldl_append]

theorem build_snoc (h : List (Ins C A)) (x : Ins C A) :
    build (h ++ [x]) = insert (build h) x := by
  simp [build, List.foldl_append]

/-! ### insert then search -/

theorem tot_path_addLeaf (e : Int) (x : Int) (xs : List Int) (v : C → List A) (f : Forest C A)
    (hf : WF f) (hn : NoHead f e x) :
    tot (path (addLeaf true e (x :: xs) v f) e (x :: xs)) = (x :: xs).length := by
  induction f with
  | nil =>
    have : matchedLength (x :: xs) e (x :: xs) e = (x :: xs).length := by
      simp [matchedLength, commonLen_self]
    simp [addLeaf, path, this]
  | cons toks ex val ref kids rest ihk ihr =>
    obtain ⟨ht, hv, hk, hr, hs, he⟩ := hf
    have hz := matchedLength_eq_zero_iff (e := e) (ex := ex) (List.cons_ne_nil x xs) ht
    have : matchedLength (x :: xs) e toks ex = 0 := hz.mpr (by simpa using hn.1)
    simp only [addLeaf, path, this, if_true]
    simpa using ihr hr hn.2

theorem tot_path_ins (e : Int) (full : C → List A) (f : Forest C A) (m : Nat) (k : List Int)
    (hf : WF f) (hk : k ≠ []) : tot (path (ins true e full f m k) e k) = k.length := by
  induction f generalizing m k with
  | nil =>
    rw [ins_nil]
    have : matchedLength k e k e = k.length := by
      simp [matchedLength, commonLen_self]
    simp [path, this, hk]
  | cons toks ex val ref kids rest ihk ihr =>
    obtain ⟨ht, hv, hkk, hr, hs, he⟩ := hf
    have hl := ml_le_left k toks e ex
    by_cases h0 : matchedLength k e toks ex = 0
    · rw [ins_skip _ _ _ _ _ _ _ _ _ _ _ h0]
      simp only [path, hk, h0, if_true, if_false]
      exact ihr m k hr hk
    · obtain ⟨hee, hml⟩ := matchedLength_ne_zero h0
      subst hee
      by_cases h2 : k.drop (matchedLength k ex toks ex) = []
      · rw [ins_done _ _ _ _ _ _ _ _ _ _ _ h0 h2]
        simp only [path, hk, h0, if_false, h2, path_nil_key, tot_cons, tot_nil]
        simp [List.drop_eq_nil_iff] at h2; omega
      · have hsub : tot (path (.cons toks ex val ref (ins true ex full kids (m + matchedLength k ex toks ex)
            (k.drop (matchedLength k ex toks ex))) rest) ex k) = k.length := by
          simp only [path, hk, h0, if_false, tot_cons]
          rw [ihk _ _ hkk h2]; simp; omega
        by_cases h3 : matchedLength k ex toks ex < toks.length
        · rw [ins_part _ _ _ _ _ _ _ _ _ _ _ h0 h2 h3]
          split
          · exact hsub
          · have hdrop : toks.drop (matchedLength k ex toks ex) ≠ [] := by
              intro hc; simp [List.drop_eq_nil_iff] at hc; omega
            obtain ⟨x, xs, hx⟩ := List.exists_cons_of_ne_nil h2
            obtain ⟨y, ys, hy⟩ := List.exists_cons_of_ne_nil hdrop
            have hd : x ≠ y := commonLen_diverge (hml ▸ hx) (hml ▸ hy)
            generalize hM : matchedLength k ex toks ex = M at *
            have hMM : matchedLength k ex (toks.take M) ex = M := by
              have h1 : matchedLength k ex (toks.take M) ex = commonLen k (toks.take M) := by
                simp [matchedLength]
              rw [h1]
              apply Nat.le_antisymm
              · have := commonLen_le_right k (toks.take M); simp at this; omega
              · apply (prefix_iff_commonLen M k _ hl).mp
                rw [hml, commonLen_take k toks]
            simp only [path, hk, hMM, h0, if_false, tot_cons]
            rw [hx, tot_path_addLeaf]
            · rw [← hx]; simp; omega
            · exact ⟨hdrop, fun c => by simp [hv c], hkk, trivial, by simp [NoHead], he⟩
            · simp only [NoHead, and_true, hy, List.head?_cons, not_and, Option.some.injEq]
              intro _; exact fun h => hd h.symm
        · rw [ins_full _ _ _ _ _ _ _ _ _ _ _ h0 h2 h3]; exact hsub

/-! ### root-to-node paths come from inserted keys -/

def Paths (K : Int → List Int → Prop) : Forest C A → List Int → Prop
  | .nil, _ => True
  | .cons toks ex _ _ kids rest, p =>
    (∃ k, K ex k ∧ p ++ toks <+: k) ∧ Paths K kids (p ++ toks) ∧ Paths K rest p

theorem Paths_mono {K K' : Int → List Int → Prop} (h : ∀ e k, K e k → K' e k) (f : Forest C A)
    (p : List Int) (hp : Paths K f p) : Paths K' f p := by
  induction f generalizing p with
  | nil => trivial
  | cons toks ex val ref kids rest ihk ihr =>
    obtain ⟨⟨k, h1, h2⟩, h3, h4⟩ := hp
    exact ⟨⟨k, h _ _ h1, h2⟩, ihk _ h3, ihr _ h4⟩

theorem Paths_addLeaf (K : Int → List Int → Prop) (e : Int) (k : List Int) (v : C → List A)
    (f : Forest C A) (p : List Int) (hp : Paths K f p) (hk : K e (p ++ k)) :
    Paths K (addLeaf true e k v f) p := by
  induction f generalizing p with
  | nil => simp only [addLeaf, if_true]; exact ⟨⟨_, hk, List.prefix_rfl⟩, trivial, trivial⟩
  | cons toks ex val ref kids rest ihk ihr =>
    obtain ⟨h1, h3, h4⟩ := hp
    exact ⟨h1, h3, ihr _ h4 hk⟩

theorem Paths_ins (K : Int → List Int → Prop) (e : Int) (full : C → List A) (f : Forest C A) (m : Nat)
    (k p : List Int) (hf : WF f) (hk : k ≠ []) (hm : NoMid f e k) (hp : Paths K f p)
    (hK : K e (p ++ k)) : Paths K (ins true e full f m k) p := by
  induction f generalizing m k p with
  | nil => rw [ins_nil]; exact ⟨⟨_, hK, List.prefix_rfl⟩, trivial, trivial⟩
  | cons toks ex val ref kids rest ihk ihr =>
    obtain ⟨ht, hv, hkk, hr, hs, he⟩ := hf
    obtain ⟨h1, h3, h4⟩ := hp
    by_cases h0 : matchedLength k e toks ex = 0
    · rw [ins_skip _ _ _ _ _ _ _ _ _ _ _ h0]
      refine ⟨h1, h3, ihr m k p hr hk ?_ h4 hK⟩
      rcases hm with h | ⟨_, h⟩ | ⟨h, _⟩ | ⟨h, _⟩
      · exact absurd h hk
      · exact h
      · exact absurd h0 h
      · exact absurd h0 h
    · obtain ⟨hee, hml⟩ := matchedLength_ne_zero h0
      subst hee
      have hkt : k.take (matchedLength k ex toks ex) = toks.take (matchedLength k ex toks ex) := by
        rw [hml]; exact commonLen_take k toks
      by_cases h2 : k.drop (matchedLength k ex toks ex) = []
      · rw [ins_done _ _ _ _ _ _ _ _ _ _ _ h0 h2]; exact ⟨h1, h3, h4⟩
      · by_cases hlt : matchedLength k ex toks ex < toks.length
        · have hm' : ∀ x, (k.drop (matchedLength k ex toks ex)).head? = some x → NoHead kids ex x := by
            rcases hm with h | ⟨h, _⟩ | ⟨_, h, _⟩ | ⟨_, _, h⟩
            · exact absurd h hk
            · exact absurd h h0
            · omega
            · exact h
          obtain ⟨x, xs, hx⟩ := List.exists_cons_of_ne_nil h2
          have hnone : insWalk true ex full kids (m + matchedLength k ex toks ex)
              (k.drop (matchedLength k ex toks ex)) = none := by
            rw [hx]; exact (insWalk_none_iff _ _ _ _ _ _ _ hkk).mpr (hm' x (by simp [hx]))
          rw [ins_part _ _ _ _ _ _ _ _ _ _ _ h0 h2 hlt, hnone]
          simp only [Option.isSome_none, Bool.false_eq_true, if_false]
          generalize matchedLength k ex toks ex = M at *
          have hback : p ++ toks.take M ++ toks.drop M = p ++ toks := by simp
          refine ⟨?_, ?_, h4⟩
          · obtain ⟨k', hk', hpre⟩ := h1
            refine ⟨k', hk', List.IsPrefix.trans ?_ hpre⟩
            exact List.prefix_append_right_inj p |>.mpr (List.take_prefix M toks)
          · apply Paths_addLeaf
            · refine ⟨?_, ?_, trivial⟩
              · rw [hback]; exact h1
              · rw [hback]; exact h3
            · rw [← hkt, List.append_assoc, List.take_append_drop]; exact hK
        · have hM : matchedLength k ex toks ex = toks.length := by
            have := ml_le_right k toks ex ex; omega
          rw [ins_full _ _ _ _ _ _ _ _ _ _ _ h0 h2 hlt]
          refine ⟨h1, ?_, h4⟩
          rw [hM] at h0 hkt h2 ⊢
          apply ihk _ _ _ hkk h2 _ h3
          · rw [List.take_length] at hkt
            have : p ++ toks ++ k.drop toks.length = p ++ k := by
              conv_lhs => rw [List.append_assoc, ← hkt]
              rw [hkt]
              conv_rhs => rw [← List.take_append_drop toks.length k, hkt]
            rw [this]; exact hK
          · rcases hm with h | ⟨h, _⟩ | ⟨_, _, h⟩ | ⟨_, h, _⟩
            · exact absurd h hk
            · rw [hM] at h; exact absurd h h0
            · rw [hM] at h; exact h
            · rw [hM] at h; omega

theorem not_NoHead {f : Forest C A} {e x : Int} (K : Int → List Int → Prop) (p : List Int)
    (hp : Paths K f p) (h : ¬ NoHead f e x) : ∃ k ts, K e k ∧ p ++ x :: ts <+: k := by
  induction f generalizing p with
  | nil => exact absurd trivial h
  | cons toks ex val ref kids rest ihk ihr =>
    obtain ⟨⟨k, h1, h2⟩, h3, h4⟩ := hp
    by_cases hc : ex = e ∧ toks.head? = some x
    · obtain ⟨rfl, hh⟩ := hc
      cases toks with
      | nil => simp at hh
      | cons t ts => simp at hh; subst hh; exact ⟨k, ts, h1, h2⟩
    · exact ihr p h4 (fun hn => h ⟨hc, hn⟩)

theorem NoMid_of_sep (K : Int → List Int → Prop) (e : Int) (f : Forest C A) (p key : List Int)
    (hf : WF f) (hp : Paths K f p) (hs : ∀ k, K e k → Separable (p ++ key) k) : NoMid f e key := by
  induction f generalizing p key with
  | nil => trivial
  | cons toks ex val ref kids rest ihk ihr =>
    obtain ⟨ht, hv, hkk, hr, hsib, he⟩ := hf
    obtain ⟨h1, h3, h4⟩ := hp
    by_cases hkey : key = []
    · exact Or.inl hkey
    by_cases h0 : matchedLength key e toks ex = 0
    · exact Or.inr (Or.inl ⟨h0, ihr p key hr h4 hs⟩)
    obtain ⟨hee, hml⟩ := matchedLength_ne_zero h0
    subst hee
    have hkt : key.take (matchedLength key ex toks ex) = toks.take (matchedLength key ex toks ex) := by
      rw [hml]; exact commonLen_take key toks
    by_cases hfull : matchedLength key ex toks ex = toks.length
    · refine Or.inr (Or.inr (Or.inl ⟨h0, hfull, ?_⟩))
      apply ihk (p ++ toks) _ hkk h3
      intro k hk
      have : p ++ toks ++ key.drop (matchedLength key ex toks ex) = p ++ key := by
        rw [hfull, List.take_length] at hkt
        rw [hfull]
        conv_rhs => rw [← List.take_append_drop toks.length key, hkt]
        simp
      rw [this]; exact hs k hk
    · have hlt : matchedLength key ex toks ex < toks.length := by
        have := ml_le_right key toks ex ex; omega
      refine Or.inr (Or.inr (Or.inr ⟨h0, hlt, ?_⟩))
      intro x hx
      by_contra hn
      obtain ⟨k, ts, hk, hpre⟩ := not_NoHead K (p ++ toks) h3 hn
      have hdk : ∃ xs, key.drop (matchedLength key ex toks ex) = x :: xs := by
        cases hd : key.drop (matchedLength key ex toks ex) with
        | nil => simp [hd] at hx
        | cons a as => simp [hd] at hx; exact ⟨as, by rw [hx]⟩
      obtain ⟨xs, hxs⟩ := hdk
      have hdt : toks.drop (matchedLength key ex toks ex) ≠ [] := by
        intro hc; simp [List.drop_eq_nil_iff] at hc; omega
      obtain ⟨y, ys, hys⟩ := List.exists_cons_of_ne_nil hdt
      have hne : x ≠ y := commonLen_diverge (hml ▸ hxs) (hml ▸ hys)
      obtain ⟨tl, htl⟩ := hpre
      generalize matchedLength key ex toks ex = M at *
      refine hs k hk (p ++ toks.take M) x xs y (ys ++ x :: ts ++ tl) ?_ ?_ hne ?_
      · rw [← hkt, ← hxs]; simp
      · rw [← htl]
        have : toks = toks.take M ++ y :: ys := by rw [← hys]; simp
        conv_lhs => rw [this]
        simp
      · simp

/-! ### history invariant -/

/-- the tree represents the history for strict lookups -/
def Rep (h : List (Ins C A)) (t : Forest C A) : Prop :=
  ∀ e key,
    (∀ r ∈ h, r.extra = e → commonLen key r.key ≤ tot (spath t e key)) ∧
    (tot (spath t e key) = 0 ∨ ∃ r ∈ h, r.extra = e ∧ commonLen key r.key = tot (spath t e key)) ∧
    ∀ c i, i < tot (spath t e key) →
      ∃ o, firstOwner h e key i = some o ∧ (col c (spath t e key))[i]? = (o.val c)[i]?

theorem isPrefixOf_take_iff (key k : List Int) (i : Nat) (h : i < key.length) :
    (key.take (i + 1)).isPrefixOf k = true ↔ i < commonLen key k := by
  rw [List.isPrefixOf_iff_prefix, prefix_iff_commonLen _ _ _ (by omega)]; omega

theorem tot_spath_le (f : Forest C A) (e : Int) (key : List Int) : tot (spath f e key) ≤ key.length := by
  induction f generalizing key with
  | nil => simp [spath]
  | cons toks ex val ref kids rest ihk ihr =>
    simp only [spath]
    split
    · simp
    · split
      · exact ihr key
      · simp only [tot_cons]
        have h1 := ihk (key.drop (matchedLength key e toks ex))
        have h2 := ml_le_left key toks e ex
        split
        · simp at h1; omega
        · simpa using h2

theorem Rep_insert (h : List (Ins C A)) (t : Forest C A) (r : Ins C A) (ht : WF t) (hr : r.Fits)
    (hm : NoMid t r.extra r.key) (hrep : Rep h t) : Rep (h ++ [r]) (insert t r) := by
  by_cases hk : r.key = []
  · have hsame : insert t r = t := by simp [insert, insertRaw, hk]
    rw [hsame]
    intro e key
    obtain ⟨h1, h2, h3⟩ := hrep e key
    refine ⟨?_, ?_, ?_⟩
    · intro r' hr' he
      rcases List.mem_append.mp hr' with hr' | hr'
      · exact h1 r' hr' he
      · simp at hr'; subst hr'; simp [hk]
    · rcases h2 with h2 | ⟨r', hr', h4⟩
      · exact Or.inl h2
      · exact Or.inr ⟨r', by simp [hr'], h4⟩
    · intro c i hi
      obtain ⟨o, ho, h4⟩ := h3 c i hi
      exact ⟨o, by unfold firstOwner at *; rw [List.find?_append, ho]; rfl, h4⟩
  · rw [insert_eq t r hk]
    intro e key
    obtain ⟨s1, s2⟩ := spath_ins r.extra r.val t 0 r.key ht hk hm (fun c => by have := hr c; omega) e key
    obtain ⟨h1, h2, h3⟩ := hrep e key
    have hcl := fun c => col_length c _ (spath_fits t e key ht)
    have hb : tot (spath t e key) ≤ key.length := tot_spath_le t e key
    rw [s1]
    simp only [s2, List.drop_zero]
    refine ⟨?_, ?_, ?_⟩
    · intro r' hr' he
      rcases List.mem_append.mp hr' with hr' | hr'
      · have := h1 r' hr' he; omega
      · simp at hr'; subst hr'; simp [ov, he]
    · by_cases hmx : ov r.extra r.key e key ≤ tot (spath t e key)
      · rw [Nat.max_eq_left hmx]
        rcases h2 with h2 | ⟨r', hr', h4⟩
        · exact Or.inl h2
        · exact Or.inr ⟨r', by simp [hr'], h4⟩
      · rw [Nat.max_eq_right (by omega)]
        right
        refine ⟨r, by simp, ?_⟩
        unfold ov at *
        split at hmx
        · next he => exact ⟨he, by simp [he]⟩
        · omega
    · intro c i hi
      by_cases hi' : i < tot (spath t e key)
      · obtain ⟨o, ho, h4⟩ := h3 c i hi'
        refine ⟨o, by unfold firstOwner at *; rw [List.find?_append, ho]; rfl, ?_⟩
        rw [List.getElem?_append_left (by rw [hcl c]; exact hi'), h4]
      · have hov : i < ov r.extra r.key e key := by omega
        have he : r.extra = e := by
          unfold ov at hov; split at hov
          · assumption
          · omega
        have hov' : ov r.extra r.key e key = commonLen key r.key := by simp [ov, he]
        have hik : i < key.length := by
          have := commonLen_le_left key r.key; omega
        refine ⟨r, ?_, ?_⟩
        · unfold firstOwner
          rw [List.find?_append]
          have hn : h.find? (fun r => r.extra = e && (key.take (i + 1)).isPrefixOf r.key) = none := by
            rw [List.find?_eq_none]
            intro r' hr' hc
            simp only [Bool.and_eq_true, decide_eq_true_eq] at hc
            have h5 := (isPrefixOf_take_iff key r'.key i hik).mp hc.2
            have := h1 r' hr' hc.1
            omega
          rw [hn]
          have := (isPrefixOf_take_iff key r.key i hik).mpr (by omega)
          simp [he, this]
        · rw [List.getElem?_append_right (by rw [hcl c]; omega), hcl c, List.getElem?_drop,
            List.getElem?_take]
          have : tot (spath t e key) + (i - tot (spath t e key)) = i := by omega
          rw [this]; simp [hov]

theorem history_inv (h : List (Ins C A)) (hfit : ∀ r ∈ h, r.Fits) (hsep : SepHist h) :
    WF (build h) ∧ Paths (fun e k => ∃ r ∈ h, r.extra = e ∧ r.key = k) (build h) [] ∧
      Rep h (build h) := by
  induction h using List.reverseRecOn with
  | nil =>
    refine ⟨trivial, trivial, ?_⟩
    intro e key
    simp [build, spath]
  | append_singleton h r ih =>
    have hfit' : ∀ r ∈ h, r.Fits := fun r hr => hfit r (by simp [hr])
    have hr : r.Fits := hfit r (by simp)
    unfold SepHist at hsep
    rw [List.pairwise_append] at hsep
    obtain ⟨hs1, _, hs3⟩ := hsep
    obtain ⟨i1, i2, i3⟩ := ih hfit' hs1
    have hm : NoMid (build h) r.extra r.key := by
      apply NoMid_of_sep _ _ _ [] _ i1 i2
      rintro k ⟨r', hr', he, rfl⟩
      exact hs3 r' hr' r (by simp) he
    rw [build_snoc]
    refine ⟨WF_insert _ _ i1 hr, ?_, Rep_insert h _ r i1 hr hm i3⟩
    have i2' := Paths_mono (K' := fun e k => ∃ r' ∈ h ++ [r], r'.extra = e ∧ r'.key = k)
      (fun e k ⟨r', h1, h2⟩ => ⟨r', by simp [h1], h2⟩) (build h) [] i2
    by_cases hk : r.key = []
    · have hsame : insert (build h) r = build h := by simp [insert, insertRaw, hk]
      rw [hsame]; exact i2'
    · rw [insert_eq _ _ hk]
      exact Paths_ins _ _ _ _ _ _ _ i1 hk hm i2' ⟨r, by simp, rfl, rfl⟩

/-! ### projection to one extra key -/

/-- keep the subtrees of extra key `e` -/
def proj (e : Int) : Forest C A → Forest C A
  | .nil => .nil
  | .cons toks ex val ref kids rest =>
    if ex = e then .cons toks ex val ref kids (proj e rest) else proj e rest

theorem ml_ne_extra {key toks : List Int} {e ex : Int} (h : ex ≠ e) : matchedLength key e toks ex = 0 := by
  have : e ≠ ex := fun h' => h h'.symm
  simp [matchedLength, this]

theorem path_proj (f : Forest C A) (e : Int) (key : List Int) :
    path (proj e f) e key = path f e key := by
  induction f with
  | nil => rfl
  | cons toks ex val ref kids rest ihk ihr =>
    by_cases h : ex = e
    · simp [proj, h, path, ihr]
    · have h0 := ml_ne_extra (key := key) (toks := toks) h
      simp only [proj, h, if_false, path, h0, if_true, ihr]
      by_cases hk : key = []
      · simp [hk, path_nil_key]
      · simp [hk]

theorem proj_ins (ok : Bool) (e e' : Int) (full : C → List A) (f : Forest C A) (m : Nat) (k : List Int) :
    proj e' (ins ok e full f m k) = if e = e' then ins ok e full (proj e' f) m k else proj e' f := by
  induction f with
  | nil =>
    rw [ins_nil]
    by_cases h : e = e'
    · cases ok <;> simp [proj, h, ins_nil]
    · cases ok <;> simp [proj, h]
  | cons toks ex val ref kids rest ihk ihr =>
    by_cases h0 : matchedLength k e toks ex = 0
    · rw [ins_skip _ _ _ _ _ _ _ _ _ _ _ h0]
      by_cases hx : ex = e'
      · simp only [proj, hx, if_true, ihr]
        split
        · rw [ins_skip _ _ _ _ _ _ _ _ _ _ _ (hx ▸ h0)]
        · rfl
      · simp only [proj, hx, if_false, ihr]
    · obtain ⟨hee, hml⟩ := matchedLength_ne_zero h0
      subst hee
      by_cases h2 : k.drop (matchedLength k ex toks ex) = []
      · rw [ins_done _ _ _ _ _ _ _ _ _ _ _ h0 h2]
        by_cases hx : ex = e'
        · simp only [proj, hx, if_true]
          subst hx
          rw [ins_done _ _ _ _ _ _ _ _ _ _ _ h0 h2]
        · simp [proj, hx]
      · by_cases h3 : matchedLength k ex toks ex < toks.length
        · rw [ins_part _ _ _ _ _ _ _ _ _ _ _ h0 h2 h3]
          by_cases hx : ex = e'
          · subst hx
            simp only [proj, if_true]
            rw [ins_part _ _ _ _ _ _ _ _ _ _ _ h0 h2 h3]
            split <;> simp [proj]
          · simp only [proj, hx, if_false]
            split <;> simp [proj, hx]
        · rw [ins_full _ _ _ _ _ _ _ _ _ _ _ h0 h2 h3]
          by_cases hx : ex = e'
          · subst hx
            simp only [proj, if_true]
            rw [ins_full _ _ _ _ _ _ _ _ _ _ _ h0 h2 h3]
          · simp [proj, hx]

theorem proj_insertRaw (ok : Bool) (e' : Int) (t : Forest C A) (r : Ins C A) :
    proj e' (insertRaw ok t r) = if r.extra = e' then insertRaw ok (proj e' t) r else proj e' t := by
  by_cases hk : r.key = []
  · simp [insertRaw, hk]
  · rw [insertRaw_eq ok t r hk, proj_ins, insertRaw_eq _ _ _ hk]

theorem proj_buildThrow (e : Int) (h : List (Bool × Ins C A)) :
    proj e (buildThrow h) = buildThrow (h.filter (fun x => x.2.extra = e)) := by
  induction h using List.reverseRecOn with
  | nil => rfl
  | append_singleton h x ih =>
    rw [buildThrow_snoc, proj_insertRaw, List.filter_append]
    by_cases hx : x.2.extra = e
    · simp only [hx, if_true, List.filter_cons, decide_true, List.filter_nil]
      rw [buildThrow_snoc, ih]
    · simp [hx, ih]

/-! ### stored addresses were supplied -/

def Supplied (S : Int → C → A → Prop) : Forest C A → Prop
  | .nil => True
  | .cons _ ex val _ kids rest =>
    (∀ c, ∀ a ∈ val c, S ex c a) ∧ Supplied S kids ∧ Supplied S rest

theorem Supplied_mono {S S' : Int → C → A → Prop} (h : ∀ e c a, S e c a → S' e c a) (f : Forest C A)
    (hf : Supplied S f) : Supplied S' f := by
  induction f with
  | nil => trivial
  | cons toks ex val ref kids rest ihk ihr =>
    obtain ⟨h1, h2, h3⟩ := hf
    exact ⟨fun c a ha => h _ _ _ (h1 c a ha), ihk h2, ihr h3⟩

theorem Supplied_addLeaf (S : Int → C → A → Prop) (ok : Bool) (e : Int) (k : List Int) (v : C → List A)
    (f : Forest C A) (hf : Supplied S f) (hv : ∀ c, ∀ a ∈ v c, S e c a) :
    Supplied S (addLeaf ok e k v f) := by
  induction f with
  | nil => cases ok <;> simp [addLeaf, Supplied]; exact hv
  | cons toks ex val ref kids rest ihk ihr =>
    obtain ⟨h1, h2, h3⟩ := hf
    exact ⟨h1, h2, ihr h3⟩

theorem mem_sub {m n : Nat} {xs : List A} {a : A} (h : a ∈ sub m n xs) : a ∈ xs :=
  List.mem_of_mem_drop (List.mem_of_mem_take h)

theorem Supplied_ins (S : Int → C → A → Prop) (ok : Bool) (e : Int) (full : C → List A) (f : Forest C A)
    (m : Nat) (k : List Int) (hf : Supplied S f) (hv : ∀ c, ∀ a ∈ full c, S e c a) :
    Supplied S (ins ok e full f m k) := by
  induction f generalizing m k with
  | nil =>
    rw [ins_nil]; cases ok <;> simp [Supplied]
    intro c a ha; exact hv c a (mem_sub ha)
  | cons toks ex val ref kids rest ihk ihr =>
    obtain ⟨h1, h2, h3⟩ := hf
    by_cases h0 : matchedLength k e toks ex = 0
    · rw [ins_skip _ _ _ _ _ _ _ _ _ _ _ h0]; exact ⟨h1, h2, ihr m k h3⟩
    · by_cases hd : k.drop (matchedLength k e toks ex) = []
      · rw [ins_done _ _ _ _ _ _ _ _ _ _ _ h0 hd]; exact ⟨h1, h2, h3⟩
      · by_cases hlt : matchedLength k e toks ex < toks.length
        · rw [ins_part _ _ _ _ _ _ _ _ _ _ _ h0 hd hlt]
          split
          · exact ⟨h1, ihk _ _ h2, h3⟩
          · refine ⟨fun c a ha => h1 c a (List.mem_of_mem_take ha), ?_, h3⟩
            apply Supplied_addLeaf
            · exact ⟨fun c a ha => h1 c a (List.mem_of_mem_drop ha), h2, trivial⟩
            · intro c a ha; exact hv c a (mem_sub ha)
        · rw [ins_full _ _ _ _ _ _ _ _ _ _ _ h0 hd hlt]; exact ⟨h1, ihk _ _ h2, h3⟩

theorem Supplied_path (S : Int → C → A → Prop) (f : Forest C A) (e : Int) (key : List Int)
    (hf : Supplied S f) : ∀ x ∈ path f e key, ∀ c, ∀ a ∈ x.1 c, S e c a := by
  induction f generalizing key with
  | nil => simp [path]
  | cons toks ex val ref kids rest ihk ihr =>
    obtain ⟨h1, h2, h3⟩ := hf
    simp only [path]
    split
    · simp
    · split
      · exact ihr key h3
      · next h0 =>
        obtain ⟨hee, _⟩ := matchedLength_ne_zero h0
        subst hee
        intro x hx
        rcases List.mem_cons.mp hx with rfl | hx
        · exact h1
        · exact ihk _ h2 x hx

end Verif.Radix
