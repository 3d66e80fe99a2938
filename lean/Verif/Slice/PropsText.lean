import Verif.Slice.Text
import Verif.Slice.Lemmas
import Verif.Stream.PropsText

/-!
# C161-C163: placeholders, embeddings and temporary files of MiniCPM-o
-/

namespace Verif.Slice

variable {E : Type}

/-! ## C161: tags -/

theorem tag_get (k : Nat) (hk : 1 ≤ k) (hk' : k < tag.length) : tag[k]? ≠ tag[0]? := by
  have : tag.length = 19 := by decide
  rw [this] at hk'
  interval_cases k <;> decide

/-- Two occurrences of the tag do not overlap. -/
theorem find_tag {a b : List Char} (ha : ¬ tag <:+: a) : Token.findSub tag (a ++ (tag ++ b)) = some a.length := by
  have hpre : tag <+: (a ++ (tag ++ b)).drop a.length := by
    rw [List.drop_left]; exact List.prefix_append _ _
  cases hf : Token.findSub tag (a ++ (tag ++ b)) with
  | none => exact absurd hpre (Token.findSub_none hf a.length)
  | some p =>
    obtain ⟨h1, h2, h3⟩ := Token.findSub_some hf
    rcases Nat.lt_trichotomy p a.length with h | h | h
    · exfalso
      by_cases hin : p + tag.length ≤ a.length
      · apply ha
        rw [List.drop_append_of_le_length (by omega)] at h2
        have h4 : tag <+: a.drop p :=
          List.prefix_of_prefix_length_le h2 (List.prefix_append _ _) (by rw [List.length_drop]; omega)
        exact h4.isInfix.trans (List.drop_suffix _ _).isInfix
      · have hk : a.length - p < tag.length := by omega
        obtain ⟨r, hr⟩ := h2
        have e1 := congrArg (·[a.length - p]?) hr
        simp only [List.getElem?_drop] at e1
        rw [List.getElem?_append_left hk, show p + (a.length - p) = a.length by omega,
          List.getElem?_append_right (le_refl _), Nat.sub_self, List.getElem?_append_left (by decide)] at e1
        exact tag_get _ (by omega) hk e1
    · rw [h]
    · exact absurd hpre (h3 _ h)

theorem find_absent {b : List Char} (hb : ¬ tag <:+: b) : Token.findSub tag b = none := by
  cases hf : Token.findSub tag b with
  | none => rfl
  | some p =>
    obtain ⟨h1, h2, -⟩ := Token.findSub_some hf
    exact absurd (h2.isInfix.trans (List.drop_suffix _ _).isInfix) hb

/-- **C161 (partial).** If the image tag occurs nowhere else in the message, it is replaced by the
placeholder of the image, and nothing of the text is lost. -/
theorem C161_tag_partial (ph : Nat → List Char) {a b : List Char} (ha : ¬ tag <:+: a) (hb : ¬ tag <:+: b) :
    replaceTags ph (a ++ (tag ++ b)) = some (a ++ (ph 0 ++ ("\n".toList ++ b))) := by
  unfold replaceTags
  obtain ⟨n, hn⟩ : ∃ n, (a ++ (tag ++ b)).length = n + 1 := ⟨(a ++ (tag ++ b)).length - 1, by
    have : tag.length = 19 := by decide
    rw [List.length_append, List.length_append, this]; omega⟩
  rw [hn, splitTags, find_tag ha]
  dsimp only
  rw [List.take_left, ← List.append_assoc, show a.length + tag.length = (a ++ tag).length by simp, List.drop_left]
  have hs : splitTags n b = [b] := by
    cases n with
    | zero => rfl
    | succ n => rw [splitTags, find_absent hb]
  rw [hs]
  rfl

/-- **C161 is violated.** A message that contains the tag once more — a user may type it — makes the program
read a second image size that does not exist. -/
theorem C161_tag_twice_violated (ph : Nat → List Char) {a b : List Char} (ha : ¬ tag <:+: a) (hb : ¬ tag <:+: b)
    (c : List Char) : replaceTags ph (a ++ (tag ++ (b ++ (tag ++ c)))) = none := by
  unfold replaceTags
  have ht : tag.length = 19 := by decide
  obtain ⟨n, hn⟩ : ∃ n, (a ++ (tag ++ (b ++ (tag ++ c)))).length = n + 2 :=
    ⟨(a ++ (tag ++ (b ++ (tag ++ c)))).length - 2, by simp only [List.length_append, ht]; omega⟩
  rw [hn, splitTags, find_tag ha]
  dsimp only
  rw [List.take_left, ← List.append_assoc, show a.length + tag.length = (a ++ tag).length by simp, List.drop_left]
  rw [splitTags, find_tag hb]
  dsimp only
  rw [List.take_left, ← List.append_assoc, show b.length + tag.length = (b ++ tag).length by simp, List.drop_left]
  cases hsp : splitTags n c with
  | nil =>
    cases n with
    | zero => simp [splitTags] at hsp
    | succ n => rw [splitTags] at hsp; split at hsp <;> simp at hsp
  | cons x xs => rfl

example : ¬ tag <:+: "describe ".toList ∧ ¬ tag <:+: " in detail".toList := by decide +kernel

/-! ## C161: slots -/

theorem posFrom_append (p : Int → Bool) : ∀ (b : Nat) (x y : List Int),
    posFrom p b (x ++ y) = posFrom p b x ++ posFrom p (b + x.length) y
  | b, [], y => by simp [posFrom]
  | b, a :: x, y => by
    rw [List.cons_append, posFrom, posFrom, posFrom_append p (b + 1) x y, List.length_cons,
      show b + 1 + x.length = b + (x.length + 1) by ring]
    split_ifs <;> rfl

theorem posFrom_none {p : Int → Bool} : ∀ {b : Nat} {x : List Int}, (∀ a ∈ x, p a = false) → posFrom p b x = []
  | b, [], _ => rfl
  | b, a :: x, h => by
    rw [posFrom, h a List.mem_cons_self]
    exact posFrom_none (fun c hc => h c (List.mem_cons_of_mem _ hc))

theorem posFrom_all {p : Int → Bool} {u : Int} (hu : p u = true) : ∀ (q b : Nat),
    posFrom p b (List.replicate q u) = List.range' b q
  | 0, b => rfl
  | q + 1, b => by
    rw [List.replicate_succ, posFrom, if_pos hu, posFrom_all hu q (b + 1), List.range'_succ]

/-- The markers are different tokens. -/
structure Marks.Distinct (t : Marks) : Prop where
  unkS : t.isStart t.unk = false
  unkE : t.isEnd t.unk = false
  imE : t.isEnd t.im = false
  slE : t.isEnd t.slice = false
  imES : t.isStart t.imEnd = false
  slES : t.isStart t.sliceEnd = false
  imU : t.im ≠ t.unk
  slU : t.slice ≠ t.unk
  imEU : t.imEnd ≠ t.unk
  slEU : t.sliceEnd ≠ t.unk

/-- Ordinary text: no marker, no slot. -/
def Marks.Plain (t : Marks) (l : List Int) : Prop := ∀ x ∈ l, t.isStart x = false ∧ t.isEnd x = false ∧ x ≠ t.unk

/-- A piece of the placeholder: text and one block. -/
structure Seg where
  junk : List Int
  s : Int
  e : Int

def segIds (t : Marks) (q : Nat) (g : Seg) : List Int := g.junk ++ block t q g.s g.e

structure Seg.Ok (t : Marks) (g : Seg) : Prop where
  junk : t.Plain g.junk
  kind : (g.s = t.im ∧ g.e = t.imEnd) ∨ (g.s = t.slice ∧ g.e = t.sliceEnd)

theorem Seg.Ok.marks {t : Marks} (hd : t.Distinct) {g : Seg} (h : g.Ok t) :
    t.isStart g.s = true ∧ t.isEnd g.s = false ∧ t.isStart g.e = false ∧ t.isEnd g.e = true ∧ g.s ≠ t.unk ∧ g.e ≠ t.unk := by
  rcases h.kind with ⟨h1, h2⟩ | ⟨h1, h2⟩
  · rw [h1, h2]
    exact ⟨by simp [Marks.isStart], hd.imE, hd.imES, by simp [Marks.isEnd], hd.imU, hd.imEU⟩
  · rw [h1, h2]
    exact ⟨by simp [Marks.isStart], hd.slE, hd.slES, by simp [Marks.isEnd], hd.slU, hd.slEU⟩

theorem seg_len (t : Marks) (q : Nat) (g : Seg) : (segIds t q g).length = g.junk.length + (q + 2) := by
  simp [segIds, block]

/-- Where the start markers of the pieces are. -/
def starts (q : Nat) : Nat → List Seg → List Nat
  | _, [] => []
  | b, g :: gs => (b + g.junk.length) :: starts q (b + (g.junk.length + (q + 2))) gs

theorem seg_pos (t : Marks) (hd : t.Distinct) (q : Nat) : ∀ (gs : List Seg) (b : Nat), (∀ g ∈ gs, g.Ok t) →
    posFrom t.isStart b (gs.flatMap (segIds t q)) = starts q b gs ∧
    posFrom t.isEnd b (gs.flatMap (segIds t q)) = (starts q b gs).map (· + (q + 1)) ∧
    posFrom (· == t.unk) b (gs.flatMap (segIds t q)) = (starts q b gs).flatMap fun s => List.range' (s + 1) q
  | [], b, _ => ⟨rfl, rfl, rfl⟩
  | g :: gs, b, h => by
    obtain ⟨h1, h2, h3⟩ := seg_pos t hd q gs (b + (g.junk.length + (q + 2))) (fun g hg => h g (List.mem_cons_of_mem _ hg))
    have hok := h g List.mem_cons_self
    obtain ⟨m1, m2, m3, m4, m5, m6⟩ := hok.marks hd
    have hrep : ∀ p : Int → Bool, p t.unk = false → ∀ b, posFrom p b (List.replicate q t.unk) = [] := by
      intro p hp b
      apply posFrom_none
      intro a ha
      rw [List.eq_of_mem_replicate ha, hp]
    rw [List.flatMap_cons]
    have key : ∀ p : Int → Bool, posFrom p b (segIds t q g ++ gs.flatMap (segIds t q))
        = posFrom p b g.junk ++ ((if p g.s then [b + g.junk.length] else []) ++
          (posFrom p (b + g.junk.length + 1) (List.replicate q t.unk) ++
            ((if p g.e then [b + g.junk.length + (q + 1)] else []) ++
              posFrom p (b + (g.junk.length + (q + 2))) (gs.flatMap (segIds t q))))) := by
      intro p
      rw [posFrom_append, seg_len]
      unfold segIds block
      rw [posFrom_append, posFrom, posFrom_append]
      simp only [posFrom, List.length_replicate]
      rw [show b + g.junk.length + 1 + q = b + g.junk.length + (q + 1) by ring]
      cases p g.s <;> cases p g.e <;> simp
    rw [key, key, key, h1, h2, h3, starts]
    have j1 : posFrom t.isStart b g.junk = [] := posFrom_none (fun a ha => (hok.junk a ha).1)
    have j2 : posFrom t.isEnd b g.junk = [] := posFrom_none (fun a ha => (hok.junk a ha).2.1)
    have j3 : posFrom (· == t.unk) b g.junk = [] := posFrom_none (fun a ha => by simpa using (hok.junk a ha).2.2)
    rw [j1, j2, j3, hrep _ hd.unkS, hrep _ hd.unkE, posFrom_all (by simp)]
    refine ⟨by simp [m1, m3], by simp [m2, m4], by simp [m5, m6]⟩

theorem mergeOne_eq (len : Nat) (emb : Nat → E) (stop : Nat) : ∀ (fuel pos idx : Nat) (text : Nat → E),
    len ≤ idx + fuel → pos + (len - idx) ≤ stop →
    mergeOne len emb stop fuel pos idx text
      = fun p => if pos ≤ p ∧ p < pos + (len - idx) then emb (idx + (p - pos)) else text p
  | 0, pos, idx, text, h1, h2 => by
    funext p
    rw [mergeOne, if_neg (by omega)]
  | fuel + 1, pos, idx, text, h1, h2 => by
    rw [mergeOne]
    by_cases hi : idx < len
    · rw [if_pos ⟨by omega, hi⟩, mergeOne_eq len emb stop fuel (pos + 1) (idx + 1) _ (by omega) (by omega)]
      funext p
      by_cases hp : p = pos
      · subst hp
        rw [if_neg (by omega), Function.update_self, if_pos ⟨by omega, by omega⟩, Nat.sub_self, Nat.add_zero]
      · rw [Function.update_of_ne hp]
        by_cases hc : pos + 1 ≤ p ∧ p < pos + 1 + (len - (idx + 1))
        · rw [if_pos hc, if_pos ⟨by omega, by omega⟩]
          congr 1; omega
        · rw [if_neg hc, if_neg (by omega)]
    · rw [if_neg (by omega)]
      funext p
      rw [if_neg (by omega)]

theorem starts_ge (q : Nat) : ∀ (gs : List Seg) (b : Nat), ∀ s ∈ starts q b gs, b ≤ s
  | [], _, s, h => by cases h
  | g :: gs, b, s, h => by
    rcases List.mem_cons.1 h with rfl | h
    · omega
    · have := starts_ge q gs _ s h; omega

/-- All slots of the pieces are filled, in order; nothing else changes. -/
theorem merge_segs (q : Nat) : ∀ (gs : List Seg) (b : Nat) (vs : List (Nat → E)) (more : List (Nat × Nat)) (text : Nat → E),
    vs.length = gs.length →
    ∃ text', mergeVision q vs (((starts q b gs).map fun s => (s, s + (q + 1))) ++ more) text = some text' ∧
      (∀ (i : Nat) (v : Nat → E) (s x : Nat), vs[i]? = some v → (starts q b gs)[i]? = some s → x < q → text' (s + 1 + x) = v x) ∧
      ∀ p, (∀ s ∈ starts q b gs, ¬ (s + 1 ≤ p ∧ p < s + 1 + q)) → text' p = text p
  | [], b, vs, more, text, h => by
    cases vs with
    | nil => exact ⟨text, rfl, fun i v s x h => by simp at h, fun _ _ => rfl⟩
    | cons v vs => simp at h
  | g :: gs, b, vs, more, text, h => by
    cases vs with
    | nil => simp at h
    | cons v vs =>
      obtain ⟨s0, hs0⟩ : ∃ s0, s0 = b + g.junk.length := ⟨_, rfl⟩
      rw [starts, ← hs0]
      have hm := mergeOne_eq q v (s0 + (q + 1)) q (s0 + 1) 0 text (by omega) (by omega)
      obtain ⟨text', e, h1, h2⟩ := merge_segs q gs (b + (g.junk.length + (q + 2))) vs more
        (mergeOne q v (s0 + (q + 1)) q (s0 + 1) 0 text) (by simpa using h)
      refine ⟨text', ?_, ?_, ?_⟩
      · rw [List.map_cons, List.cons_append, mergeVision]; exact e
      · intro i v' s x hv hs hx
        cases i with
        | zero =>
          simp only [List.getElem?_cons_zero, Option.some.injEq] at hv hs
          subst hv hs
          rw [h2 _ (fun s hs => by have := starts_ge q gs _ s hs; omega), hm]
          dsimp only
          rw [if_pos ⟨by omega, by omega⟩]
          congr 1; omega
        | succ i =>
          rw [List.getElem?_cons_succ] at hv hs
          exact h1 i v' s x hv hs hx
      · intro p hp
        rw [h2 p (fun s hs => hp s (List.mem_cons_of_mem _ hs)), hm]
        dsimp only
        have := hp s0 List.mem_cons_self
        rw [if_neg (by omega)]

/-- The placeholder as pieces. -/
def segsOf (t : Marks) (idIds nl : List Int) (grid : Option (Nat × Nat)) : List Seg :=
  ⟨idIds, t.im, t.imEnd⟩ :: (match grid with
    | none => []
    | some g => (List.range g.2).flatMap fun i => (List.range g.1).map fun j =>
        ⟨if i > 0 ∧ j = 0 then nl else [], t.slice, t.sliceEnd⟩)

theorem placeholder_segs (t : Marks) (q : Nat) (idIds nl : List Int) (grid : Option (Nat × Nat))
    (hg : ∀ g, grid = some g → 0 < g.1) :
    placeholder t q idIds nl grid = (segsOf t idIds nl grid).flatMap (segIds t q) := by
  unfold placeholder segsOf
  rw [List.flatMap_cons]
  congr 1
  cases grid with
  | none => rfl
  | some g =>
    have h0 := hg g rfl
    dsimp only
    unfold gridIds
    rw [List.flatMap_assoc]
    congr 1
    funext i
    obtain ⟨k, hk⟩ : ∃ k, g.1 = k + 1 := ⟨g.1 - 1, by omega⟩
    rw [hk, List.range_succ_eq_map, List.flatMap_map, List.flatMap_cons, List.flatMap_cons]
    simp [segIds, List.flatMap_map]

theorem segs_ok (t : Marks) (idIds nl : List Int) (grid : Option (Nat × Nat)) (h1 : t.Plain idIds) (h2 : t.Plain nl) :
    ∀ g ∈ segsOf t idIds nl grid, g.Ok t := by
  intro g hg
  unfold segsOf at hg
  rcases List.mem_cons.1 hg with rfl | hg
  · exact ⟨h1, Or.inl ⟨rfl, rfl⟩⟩
  · cases grid with
    | none => cases hg
    | some gr =>
      obtain ⟨i, _, hg⟩ := List.mem_flatMap.1 hg
      obtain ⟨j, _, rfl⟩ := List.mem_map.1 hg
      refine ⟨?_, Or.inr ⟨rfl, rfl⟩⟩
      show t.Plain (if i > 0 ∧ j = 0 then nl else [])
      split_ifs
      · exact h2
      · intro x hx; cases hx

theorem starts_length (q : Nat) : ∀ (gs : List Seg) (b : Nat), (starts q b gs).length = gs.length
  | [], _ => rfl
  | g :: gs, b => by rw [starts, List.length_cons, starts_length q gs, List.length_cons]

/-- The image and its slices. -/
def nImages : Option (Nat × Nat) → Nat
  | none => 1
  | some g => 1 + g.1 * g.2

theorem zip_map_self {α β : Type} (f : α → β) : ∀ l : List α, l.zip (l.map f) = l.map fun s => (s, f s)
  | [] => rfl
  | a :: l => by rw [List.map_cons, List.zip_cons_cons, zip_map_self f l, List.map_cons]

theorem segs_length (t : Marks) (idIds nl : List Int) (grid : Option (Nat × Nat)) :
    (segsOf t idIds nl grid).length = nImages grid := by
  unfold segsOf nImages
  cases grid with
  | none => rfl
  | some g => simp [List.length_flatMap, Nat.add_comm, Nat.mul_comm]

theorem slots_get (q : Nat) : ∀ (ss : List Nat) (k : Nat), k < ss.length * q →
    ∃ s, ss[k / q]? = some s ∧ (ss.flatMap fun s => List.range' (s + 1) q)[k]? = some (s + 1 + k % q)
  | [], k, h => by simp at h
  | s :: ss, k, h => by
    have hq : 0 < q := by
      rcases Nat.eq_zero_or_pos q with h0 | h0
      · rw [h0] at h; simp at h
      · exact h0
    rw [List.flatMap_cons]
    by_cases hk : k < q
    · refine ⟨s, by rw [Nat.div_eq_of_lt hk]; rfl, ?_⟩
      rw [List.getElem?_append_left (by simpa using hk), Nat.mod_eq_of_lt hk]
      simp [hk]
    · rw [List.length_cons, Nat.add_mul, Nat.one_mul] at h
      obtain ⟨s', e1, e2⟩ := slots_get q ss (k - q) (by omega)
      have hdiv : k / q = (k - q) / q + 1 := by
        rw [Nat.div_eq k q, if_pos ⟨hq, by omega⟩]
      have hmod : k % q = (k - q) % q := Nat.mod_eq_sub_mod (by omega)
      refine ⟨s', by rw [hdiv, List.getElem?_cons_succ]; exact e1, ?_⟩
      rw [List.getElem?_append_right (by simp; omega), hmod]
      simpa using e2

/-- **C161.** With an image of any grid, and any text after it: the slots of the placeholder are filled with
the embeddings of the image and its slices, in order — slot `k` with embedding `k % q` of image `k / q` —
and no other position of the text changes, provided the text before the image holds no marker. -/
theorem C161_slots_partial {t : Marks} (hd : t.Distinct) {q : Nat} {idIds nl pre : List Int} (hid : t.Plain idIds)
    (hnl : t.Plain nl) (hpre : t.Plain pre) {grid : Option (Nat × Nat)} (hg : ∀ g, grid = some g → 0 < g.1)
    (post : List Int) (vs : List (Nat → E))
    (hvs : vs.length = nImages grid) (text : Nat → E) :
    ∃ text', mergeVision q vs (calcBounds t (pre ++ (placeholder t q idIds nl grid ++ post))) text = some text' ∧
      (posFrom (· == t.unk) pre.length (placeholder t q idIds nl grid)).length = vs.length * q ∧
      (∀ (k p : Nat) (v : Nat → E), (posFrom (· == t.unk) pre.length (placeholder t q idIds nl grid))[k]? = some p → vs[k / q]? = some v →
        text' p = v (k % q)) ∧
      ∀ p, p ∉ posFrom (· == t.unk) pre.length (placeholder t q idIds nl grid) → text' p = text p := by
  obtain ⟨gs, hgs⟩ : ∃ gs, gs = segsOf t idIds nl grid := ⟨_, rfl⟩
  have hok := segs_ok t idIds nl grid hid hnl
  have hlen := segs_length t idIds nl grid
  rw [placeholder_segs t q idIds nl grid hg]
  rw [← hgs] at hok hlen ⊢
  obtain ⟨h1, h2, h3⟩ := seg_pos t hd q gs pre.length hok
  have hb : calcBounds t (pre ++ (gs.flatMap (segIds t q) ++ post))
      = ((starts q pre.length gs).map fun s => (s, s + (q + 1))) ++
        (posFrom t.isStart (pre.length + (gs.flatMap (segIds t q)).length) post).zip
          (posFrom t.isEnd (pre.length + (gs.flatMap (segIds t q)).length) post) := by
    unfold calcBounds
    rw [posFrom_append, posFrom_append, posFrom_append, posFrom_append,
      posFrom_none (fun a ha => (hpre a ha).1), posFrom_none (fun a ha => (hpre a ha).2.1), Nat.zero_add, h1, h2,
      List.nil_append, List.nil_append, List.zip_append (by simp)]
    rw [zip_map_self]
  have hvl : vs.length = gs.length := by rw [hvs, hlen]
  obtain ⟨text', e, m1, m2⟩ := merge_segs q gs pre.length vs
    ((posFrom t.isStart (pre.length + (gs.flatMap (segIds t q)).length) post).zip
      (posFrom t.isEnd (pre.length + (gs.flatMap (segIds t q)).length) post)) text hvl
  refine ⟨text', by rw [hb]; exact e, ?_, ?_, ?_⟩
  · rw [h3, hvl, List.length_flatMap]
    simp [starts_length]
  · intro k p v hp hv
    rw [h3] at hp
    have hk : k < (starts q pre.length gs).length * q := by
      have := (List.getElem?_eq_some_iff.1 hp).1
      rw [List.length_flatMap] at this
      simpa using this
    have hq : 0 < q := by
      rcases Nat.eq_zero_or_pos q with h0 | h0
      · rw [h0] at hk; simp at hk
      · exact h0
    obtain ⟨s, e1, e2⟩ := slots_get q _ k hk
    rw [e2] at hp
    cases hp
    exact m1 _ _ _ _ hv e1 (Nat.mod_lt _ hq)
  · intro p hp
    rw [h3] at hp
    apply m2
    intro s hs hc
    apply hp
    rw [List.mem_flatMap]
    exact ⟨s, hs, by rw [List.mem_range']; exact ⟨p - (s + 1), by omega, by omega⟩⟩

/-- **C161 is violated** by a marker in the text before the image (the system prompt is configurable): the
bounds are paired off by one, the embeddings land on the text behind the stray marker, and the last slot of
the image keeps the embedding of `<unk>`. -/
theorem C161_stray_marker_violated {t : Marks} (hd : t.Distinct) {q : Nat} (hq : 0 < q) {p1 p2 : List Int}
    (h1 : t.Plain p1) (h2 : t.Plain p2) (post : List Int) (v : Nat → E) (text : Nat → E) :
    ∃ text', mergeVision q [v] (calcBounds t (p1 ++ (t.im :: (p2 ++ (block t q t.im t.imEnd ++ post))))) text = some text' ∧
      text' (p1.length + 1) = v 0 ∧
      text' (p1.length + p2.length + 1 + q) = text (p1.length + p2.length + 1 + q) := by
  have hs : ∃ l, posFrom t.isStart 0 (p1 ++ (t.im :: (p2 ++ (block t q t.im t.imEnd ++ post)))) = p1.length :: l := by
    rw [posFrom_append, posFrom_none (fun a ha => (h1 a ha).1), posFrom, if_pos (by simp [Marks.isStart])]
    exact ⟨_, by rw [List.nil_append, Nat.zero_add]⟩
  have he : ∃ l, posFrom t.isEnd 0 (p1 ++ (t.im :: (p2 ++ (block t q t.im t.imEnd ++ post))))
      = (p1.length + p2.length + 2 + q) :: l := by
    rw [posFrom_append, posFrom_none (fun a ha => (h1 a ha).2.1), posFrom, if_neg (by rw [hd.imE]; simp), posFrom_append,
      posFrom_none (fun a ha => (h2 a ha).2.1)]
    unfold block
    rw [List.cons_append, posFrom, if_neg (by rw [hd.imE]; simp), List.append_assoc, posFrom_append,
      posFrom_none (fun a ha => by rw [List.eq_of_mem_replicate ha, hd.unkE]), List.cons_append, posFrom,
      if_pos (by simp [Marks.isEnd])]
    rw [List.nil_append, List.nil_append, List.nil_append, List.length_replicate,
      show 0 + p1.length + 1 + p2.length + 1 + q = p1.length + p2.length + 2 + q by omega]
    exact ⟨_, rfl⟩
  obtain ⟨l1, hs⟩ := hs
  obtain ⟨l2, he⟩ := he
  unfold calcBounds
  rw [hs, he, List.zip_cons_cons, mergeVision, mergeVision, mergeOne_eq _ _ _ _ _ _ _ (by omega) (by omega)]
  refine ⟨_, rfl, ?_, ?_⟩
  · dsimp only
    rw [if_pos ⟨by omega, by omega⟩, Nat.sub_self]
  · dsimp only
    rw [if_neg (by omega)]

/-- Non-vacuity: a grid of two columns and one row, three slots each, with text that contains markers after the
image. -/
def exMarks : Marks := ⟨1, 2, 3, 4, 5⟩

theorem exMarks_distinct : exMarks.Distinct := by constructor <;> decide

example : placeholder exMarks 2 [9] [8] (some (2, 2))
    = [9, 1, 5, 5, 2, 3, 5, 5, 4, 3, 5, 5, 4, 8, 3, 5, 5, 4, 3, 5, 5, 4] := by decide

example : calcBounds exMarks ([7] ++ (placeholder exMarks 2 [9] [8] (some (2, 1)) ++ [1, 7, 5])) = [(2, 5), (6, 9), (10, 13)] := by
  decide

example : exMarks.Plain [7] ∧ exMarks.Plain [9] ∧ exMarks.Plain [8] := by
  refine ⟨?_, ?_, ?_⟩ <;> · intro x hx; rw [List.mem_singleton] at hx; subst hx; decide

/-! ## C162: temporary files -/

/-- What a process has read back so far, what it still has to cut. -/
structure FsInv {D : Type} (name : Nat → Nat → Nat) (work : Nat → List D) (σ : FsSt D) (i : Nat) : Prop where
  alive : (σ.proc i).dead = false
  phase : (σ.proc i).phase = 0 ∨ (σ.proc i).phase = 1 ∨ (σ.proc i).phase = 2
  got : ((σ.proc i).phase ≠ 2 → (σ.proc i).got ++ (σ.proc i).todo = work i) ∧
    ((σ.proc i).phase = 2 → (σ.proc i).got ++ (σ.proc i).todo.tail = work i)
  file : (σ.proc i).phase = 1 → ∃ d ds, (σ.proc i).todo = d :: ds ∧ σ.file (name i (σ.proc i).k) = some d

/-- **C162 (partial).** If no two processes ever use the same number for a temporary file, every slice a
process reads back is the one it wrote, in order, and no process dies — under every interleaving. -/
theorem C162_disjoint_names_partial {D : Type} {name : Nat → Nat → Nat}
    (hn : ∀ i j k k', i ≠ j → name i k ≠ name j k') (file : Nat → Option D) (work : Nat → List D) {σ : FsSt D}
    (hr : FsReach name (FsSt.start file work) σ) (i : Nat) :
    (σ.proc i).dead = false ∧ (σ.proc i).got <+: work i := by
  have hinv : ∀ i, FsInv name work σ i := by
    induction hr with
    | init => intro i; exact ⟨rfl, Or.inl rfl, ⟨fun _ => rfl, fun h => by cases h⟩, fun h => by cases h⟩
    | @step τ υ _ hs ih =>
      intro i
      obtain ⟨ia, ip, ig, ifl⟩ := ih i
      have other : ∀ {j : Nat} {f : Nat → Option D} {c : Cutter D}, j ≠ i →
          (∀ k, f (name i k) = τ.file (name i k)) → FsInv name work ⟨f, Function.update τ.proc j c⟩ i := by
        intro j f c hji hf
        have hp : Function.update τ.proc j c i = τ.proc i := Function.update_of_ne hji.symm _ _
        constructor <;> simp only [hp]
        · exact ia
        · exact ip
        · exact ig
        · intro h
          obtain ⟨d, ds, h1, h2⟩ := ifl h
          exact ⟨d, ds, h1, by rw [hf]; exact h2⟩
      cases hs with
      | @write j d ds h1 h2 h3 =>
        by_cases hij : j = i
        · subst hij
          constructor <;> simp only [Function.update_self]
          · exact ia
          · simp
          · exact ⟨fun _ => ig.1 (by rw [h2]; decide), fun h => by cases h⟩
          · intro _; exact ⟨d, ds, h3, rfl⟩
        · exact other hij (fun k => Function.update_of_ne (hn i j _ _ (Ne.symm hij)) _ _)
      | @«open» j d h1 h2 h3 =>
        by_cases hij : j = i
        · subst hij
          obtain ⟨d', ds, e1, e2⟩ := ifl h2
          rw [h3] at e2
          cases e2
          constructor <;> simp only [Function.update_self]
          · exact ia
          · simp
          · refine ⟨fun h => absurd rfl h, fun _ => ?_⟩
            have := ig.1 (by rw [h2]; decide)
            rw [e1] at this ⊢
            rw [← this, List.tail_cons, List.append_assoc, List.singleton_append]
          · intro h; cases h
        · exact other hij (fun _ => rfl)
      | @fail j h1 h2 h3 =>
        by_cases hij : j = i
        · subst hij
          obtain ⟨d, ds, _, e2⟩ := ifl h2
          rw [h3] at e2; cases e2
        · exact other hij (fun _ => rfl)
      | @remove j h1 h2 =>
        by_cases hij : j = i
        · subst hij
          constructor <;> simp only [Function.update_self]
          · exact ia
          · simp
          · exact ⟨fun _ => ig.2 h2, fun h => by cases h⟩
          · intro h; cases h
        · exact other hij (fun k => Function.update_of_ne (hn i j _ _ (Ne.symm hij)) _ _)
  obtain ⟨ia, ip, ig, -⟩ := hinv i
  refine ⟨ia, ?_⟩
  by_cases h : (σ.proc i).phase = 2
  · exact ⟨_, ig.2 h⟩
  · exact ⟨_, ig.1 h⟩

/-- **C162 is violated.** `rand` is never seeded, so every process draws the same numbers.  Then a process can
read back the slice of another process … -/
theorem C162_foreign_slice_violated {D : Type} (r : Nat → Nat) (file : Nat → Option D) (a b : D) :
    ∃ σ, FsReach (fun _ k => r k) (FsSt.start file (fun i => if i = 0 then [a] else [b])) σ ∧
      (σ.proc 0).got = [b] := by
  refine ⟨_, .step (.step (.step .init (.write (i := 0) (d := a) (ds := []) rfl rfl rfl))
    (.write (i := 1) (d := b) (ds := []) rfl rfl rfl)) (.open (i := 0) (d := b) rfl rfl ?_), rfl⟩
  exact Function.update_self ..

/-- … or find its file removed and end. -/
theorem C162_process_ends_violated {D : Type} (r : Nat → Nat) (file : Nat → Option D) (a b : D) :
    ∃ σ, FsReach (fun _ k => r k) (FsSt.start file (fun i => if i = 0 then [a] else [b])) σ ∧
      (σ.proc 0).dead = true := by
  refine ⟨_, .step (.step (.step (.step (.step .init (.write (i := 0) (d := a) (ds := []) rfl rfl rfl))
    (.write (i := 1) (d := b) (ds := []) rfl rfl rfl)) (.open (i := 1) (d := b) rfl rfl ?_))
    (.remove (i := 1) rfl rfl)) (.fail (i := 0) rfl rfl ?_), rfl⟩
  · exact Function.update_self ..
  · exact Function.update_self ..

/-- Non-vacuity: names can be disjoint. -/
example : ∀ i j k k' : Nat, i ≠ j → Nat.pair i k ≠ Nat.pair j k' := by
  intro i j k k' h he
  exact h (Nat.pair_eq_pair.1 he).1

/-! ## C163: audio -/

theorem firstEnd_skip (e : Int) : ∀ (x : List Int) (b : Nat) (y : List Int), (∀ a ∈ x, a ≠ e) →
    firstEnd e b (x ++ y) = firstEnd e (b + x.length) y
  | [], b, y, _ => rfl
  | a :: x, b, y, h => by
    have hne : ¬ (a == e) = true := by simpa using h a List.mem_cons_self
    rw [List.cons_append, firstEnd, if_neg hne, firstEnd_skip e x (b + 1) y (fun c hc => h c (List.mem_cons_of_mem _ hc)),
      List.length_cons, show b + 1 + x.length = b + (x.length + 1) by ring]

theorem audioBounds_skip (s e : Int) : ∀ (x : List Int) (b : Nat) (y : List Int), (∀ a ∈ x, a ≠ s) →
    audioBounds s e b (x ++ y) = audioBounds s e (b + x.length) y
  | [], b, y, _ => rfl
  | a :: x, b, y, h => by
    have hne : ¬ (a == s) = true := by simpa using h a List.mem_cons_self
    rw [List.cons_append, audioBounds, if_neg hne, audioBounds_skip s e x (b + 1) y (fun c hc => h c (List.mem_cons_of_mem _ hc)),
      List.length_cons, show b + 1 + x.length = b + (x.length + 1) by ring]

/-- The embeddings of an audio that was padded or cut to 30 seconds. -/
theorem audioEmbeds_padded : audioEmbeds paddedSamples = 750 := by decide

/-- **C163.** Where the audio embeddings go: slot `x` of the audio gets embedding `x` as long as there is one;
nothing outside the slots changes — whatever the text after it. -/
theorem C163_audio_slots {s e u : Int} (hue : u ≠ e) {pre : List Int} (hpre : ∀ a ∈ pre, a ≠ s) (n len : Nat)
    (post : List Int) (emb : Nat → E) (text : Nat → E) :
    ∃ text', mergeAudio len emb (audioBounds s e 0 (pre ++ (s :: (List.replicate n u ++ (e :: post))))) text = some text' ∧
      (∀ x, x < n → text' (pre.length + 1 + x) = if x < len then emb x else text (pre.length + 1 + x)) ∧
      ∀ p, ¬ (pre.length + 1 ≤ p ∧ p < pre.length + 1 + n) → text' p = text p := by
  have hb : ∃ l, audioBounds s e 0 (pre ++ (s :: (List.replicate n u ++ (e :: post))))
      = (pre.length + 1, pre.length + 1 + n) :: l := by
    rw [audioBounds_skip s e pre 0 _ hpre, Nat.zero_add, audioBounds, if_pos (by simp),
      firstEnd_skip e _ _ _ (fun a ha => by rw [List.eq_of_mem_replicate ha]; exact hue), firstEnd, if_pos (by simp),
      List.length_replicate]
    exact ⟨_, rfl⟩
  obtain ⟨l, hb⟩ := hb
  rw [hb]
  unfold mergeAudio
  dsimp only
  have key : ∀ (fuel pos idx : Nat) (text : Nat → E), len ≤ idx + fuel →
      mergeOne len emb (pre.length + 1 + n) fuel pos idx text
        = fun p => if pos ≤ p ∧ p < pos + (len - idx) ∧ p < pre.length + 1 + n then emb (idx + (p - pos)) else text p := by
    intro fuel
    induction fuel with
    | zero =>
      intro pos idx text h1
      funext p
      rw [mergeOne, if_neg (by omega)]
    | succ fuel ih =>
      intro pos idx text h1
      rw [mergeOne]
      by_cases hi : pos < pre.length + 1 + n ∧ idx < len
      · rw [if_pos hi, ih (pos + 1) (idx + 1) _ (by omega)]
        funext p
        by_cases hp : p = pos
        · subst hp
          rw [if_neg (by omega), Function.update_self, if_pos ⟨by omega, by omega, by omega⟩, Nat.sub_self, Nat.add_zero]
        · rw [Function.update_of_ne hp]
          by_cases hc : pos + 1 ≤ p ∧ p < pos + 1 + (len - (idx + 1)) ∧ p < pre.length + 1 + n
          · rw [if_pos hc, if_pos ⟨by omega, by omega, by omega⟩]
            congr 1; omega
          · rw [if_neg hc, if_neg (by omega)]
      · rw [if_neg hi]
        funext p
        rw [if_neg (by omega)]
  refine ⟨_, rfl, ?_, ?_⟩
  · intro x hx
    rw [key len (pre.length + 1) 0 text (by omega)]
    dsimp only
    by_cases hxl : x < len
    · rw [if_pos ⟨by omega, by omega, by omega⟩, if_pos hxl]; congr 1; omega
    · rw [if_neg (by omega), if_neg hxl]
  · intro p hp
    rw [key len (pre.length + 1) 0 text (by omega)]
    dsimp only
    rw [if_neg (by omega)]

/-- **C163 (partial).** Up to 30 seconds (and two more frames) there are at most as many slots as embeddings, so every slot is filled. -/
theorem C163_short_audio_partial {n : Nat} (h0 : 0 < n) (h : n ≤ 480320) :
    0 < audioSlots n ∧ audioSlots n ≤ audioEmbeds paddedSamples := by
  rw [audioEmbeds_padded]
  unfold audioSlots
  dsimp only
  obtain ⟨f, hf⟩ : ∃ f : Nat, f = (n + 159) / 160 := ⟨_, rfl⟩
  have hcast : ((n : Int) + 159) / 160 = (f : Int) := by rw [hf]; push_cast; rfl
  rw [hcast]
  have f1 : 1 ≤ f := by omega
  have f2 : f ≤ 3002 := by omega
  rw [Int.tdiv_eq_ediv_of_nonneg (by omega : (0 : Int) ≤ (f : Int) - 1)]
  obtain ⟨y, hy⟩ : ∃ y : Int, y = ((f : Int) - 1) / 2 := ⟨_, rfl⟩
  rw [← hy]
  rcases (by omega : y = 0 ∨ 1 ≤ y) with h | h
  · rw [h]; decide
  · rw [Int.tdiv_eq_ediv_of_nonneg (by omega)]; omega

/-- **C163 is violated** by every audio longer than that: features are cut at 30 seconds, slots are not, and the
slots from 750 on keep the embedding of `<unk>`. -/
theorem C163_long_audio_violated {n : Nat} (h : 480320 < n) {s e u : Int} (hue : u ≠ e) {pre : List Int}
    (hpre : ∀ a ∈ pre, a ≠ s) (post : List Int) (emb : Nat → E) (text : Nat → E) :
    750 < audioSlots n ∧
    ∃ text', mergeAudio (audioEmbeds paddedSamples) emb
        (audioBounds s e 0 (pre ++ (s :: (List.replicate (audioSlots n).toNat u ++ (e :: post))))) text = some text' ∧
      text' (pre.length + 1 + 750) = text (pre.length + 1 + 750) := by
  have hlt : 750 < audioSlots n := by
    unfold audioSlots
    dsimp only
    have f1 : (3003 : Int) ≤ ((n : Int) + 159) / 160 := by omega
    generalize ((n : Int) + 159) / 160 = f at *
    rw [Int.tdiv_eq_ediv_of_nonneg (by omega : (0 : Int) ≤ f - 1), Int.tdiv_eq_ediv_of_nonneg (by omega)]
    omega
  refine ⟨hlt, ?_⟩
  obtain ⟨text', e1, h1, -⟩ := C163_audio_slots hue hpre (audioSlots n).toNat (audioEmbeds paddedSamples) post emb text
  refine ⟨text', e1, ?_⟩
  rw [h1 750 (by omega), audioEmbeds_padded, if_neg (by omega)]

/-- **C163 is violated.** Every audio is padded to 30 seconds, which gives 3001 frames and 1501 encoder positions;
the position table has 1500 rows, so the last position is read from behind the table. -/
theorem C163_position_table_violated : ∃ i, i < encoderLen paddedSamples ∧ ¬ i < positionRows :=
  ⟨1500, by decide, by decide⟩

example : audioSlots 16000 = 25 ∧ audioSlots 480000 = 750 ∧ audioSlots 960000 = 1500 := by decide +kernel

end Verif.Slice
